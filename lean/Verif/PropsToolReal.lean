import Verif.PropsTool
import Verif.Table
import Verif.PropsSize
import Verif.PropsSingleFits
import Verif.LowEntropyApi
import Verif.Rle8MmtfApi
import Verif.RleShApi

/-
C46: the test mode of the tool, run with the codecs of the library.
-/

namespace Hrk.Cli

/-- The row of the codec table a codec is. -/
def rowOf (c : CodecT) : Option Row := table.find? fun r => r.id == c.name

/-- The file in memory: `inp` is what lies at `pUncompressedData`. -/
def Holds (inp : Mem) (data : List Byte) : Prop := ∀ i, i < data.length → inp i = data.getD i 0

/-- The codecs of the tool are those of the table. Whenever a compressor returns, the environment
returns the same and has the same in the buffer; the same for the decompressors, which are given all
of the compressed buffer (`toolBuffer` bytes) to read and `n + 128` bytes to write (src/main.c:732),
while `outSize` is the size of the compressed buffer (src/main.c:970). -/
structure Library (e : Env) (data : List Byte) (ce cd : Cpu) (junk : CodecT → Vec) (inp : Mem) (aIn aOut : Nat) : Prop where
  comp : ∀ c row buf ret out, rowOf c = some row →
    row.comp.run ce (junk c) buf (some inp) data.length true (toolBuffer data.length) = .ok ret out →
    e.comp c data.length (toolBuffer data.length) buf = (ret, fun i => if i < out.length then out.getD i 0 else buf i)
  dec : ∀ c row size buf out ret m, rowOf c = some row →
    row.dec.run cd ⟨some ((List.range (toolBuffer data.length)).map buf), size, some out, toolBuffer data.length,
      data.length + addSize, aIn, aOut⟩ = .ok ret m →
    e.dec c size buf (toolBuffer data.length) out = (ret, m)

/-- The compressor returns and leaves 64 bytes of the tool's buffer unused. -/
def Roomy (data : List Byte) (ce : Cpu) (junk : CodecT → Vec) (inp : Mem) (c : CodecT) : Prop :=
  ∃ row, rowOf c = some row ∧ row.comp ≠ .le false false ∧ row.comp ≠ .le true false ∧
    ∀ buf, ∃ ret out, row.comp.run ce (junk c) buf (some inp) data.length true (toolBuffer data.length) = .ok ret out ∧
      out.length + 64 ≤ toolBuffer data.length

/-- Every compressor returns the number of bytes it wrote, which is not 0. -/
theorem run_ret {f : CName} {cpu : Cpu} {junk : Vec} {m0 inp : Mem} {n outSize ret : Nat} {out : List Byte}
    (hn : n < 4294967296) (ho : outSize < 4294967296) (h : f.run cpu junk m0 (some inp) n true outSize = .ok ret out) :
    ret = out.length ∧ 8 ≤ out.length := by
  have key : ∀ {x y : Nat}, (ret = out.length ∧ ∃ body, out = le32 x ++ le32 y ++ body) → ret = out.length ∧ 8 ≤ out.length := by
    rintro x y ⟨h1, body, h2⟩
    refine ⟨h1, ?_⟩
    rw [h2]
    simp
    omega
  cases f with
  | r8 s p => exact key ((C22_rle8_header ⟨s, p⟩ cpu cpu).1 inp n outSize ret out hn ho h)
  | x S u p => exact key ((C22_multibyte_header ⟨S, u, p⟩ cpu cpu).1 inp n outSize ret out hn ho h)
  | sl N S u => exact key ((C22_symlut_header ⟨N, S, u⟩ cpu cpu).1 inp n outSize ret out hn ho h)
  | sh N S u m => exact key ((C22_short_header ⟨N, S, u, m⟩ cpu cpu).1 inp n outSize ret out hn ho h)
  | x128 u p => exact key ((C22_rle128_header u p cpu cpu).1 inp n outSize ret out hn ho h)
  | rsh => exact key ((C22_sh_header m0).1 inp n outSize ret out hn ho h)
  | mm => exact key ((C22_mmtf128_header junk m0).1 inp n outSize ret out hn ho h)
  | le s o => exact key ((C22_low_entropy_header ⟨s, o⟩ cpu).1 inp n outSize ret out hn ho h)

theorem toolBuffer_lt {n : Nat} (hn : n ≤ 1073741824) : toolBuffer n < 4294967296 := by
  simp only [toolBuffer, bounds, mmtfBounds, shBounds, mmBounds, leBounds]
  repeat' split
  all_goals omega

theorem rowOf_mem {c : CodecT} {row : Row} (h : rowOf c = some row) : row ∈ table := List.mem_of_find?_eq_some h

theorem library_ok {e : Env} {data : List Byte} {ce cd : Cpu} {junk : CodecT → Vec} {inp : Mem} {aIn aOut : Nat}
    (hl : Library e data ce cd junk inp aIn aOut) (hi : Holds inp data) (h0 : 0 < data.length)
    (hn : data.length ≤ 1073741824) {c : CodecT} (hr : Roomy data ce junk inp c) (a : Attempt e data c) : a.Ok := by
  obtain ⟨row, hrow, l1, l2, hroom⟩ := hr
  obtain ⟨ret, out, hc, hlen⟩ := hroom a.buf
  have htb := toolBuffer_lt hn
  obtain ⟨hret, hpos⟩ := run_ret (by omega) htb hc
  have hcomp := hl.comp c row a.buf ret out hrow hc
  have hag := a.agree
  rw [hcomp] at hag
  have hsize : a.size = ret := by unfold Attempt.size; rw [hcomp]
  have hsrc : (List.range (toolBuffer data.length)).map a.buf' =
      out ++ ((List.range (toolBuffer data.length)).map a.buf').drop out.length := by
    conv => lhs; rw [← List.take_append_drop out.length ((List.range (toolBuffer data.length)).map a.buf')]
    congr 1
    apply List.ext_getElem
    · simp; omega
    · intro i h1 h2
      simp only [List.getElem_take, List.getElem_map, List.getElem_range]
      have := hag i (by show i < ret; omega)
      rw [this]
      show (if i < out.length then out.getD i 0 else a.buf i) = _
      rw [if_pos h2, List.getD_eq_getElem?_getD, List.getElem?_eq_getElem h2]
      rfl
  obtain ⟨m', hd, hm, -⟩ := C38_table_partial row (rowOf_mem hrow) l1 l2 ce cd (junk c) a.buf inp data.length
    (toolBuffer data.length) ret out h0 hn htb hc
    (((List.range (toolBuffer data.length)).map a.buf').drop out.length) a.out
    ⟨some ((List.range (toolBuffer data.length)).map a.buf'), ret, some a.out, toolBuffer data.length,
      data.length + addSize, aIn, aOut⟩ (by simp; omega) (by rw [← hsrc]) (by show out.length ≤ ret; omega) rfl
    (C45_buffer data.length).2.1 (Nat.le_refl _)
  have hdec := hl.dec c row ret a.buf' a.out data.length m' hrow hd
  have hres : a.result = (data.length, m') := by unfold Attempt.result; rw [hsize, hdec]
  refine ⟨by rw [hsize]; omega, by rw [hres]; show data.length ≠ 0; omega, fun i h => ?_⟩
  rw [hres]
  exact (hm i h).trans (hi i h)

/-- C46: with the codecs of the library, the test of a file of up to 2^30 bytes exits with 0, whatever
the processor, the number of repetitions and the buffers, if every codec the options let through has room
for its output and 64 bytes more in the tool's buffer. Missing: files for which the output does not fit
(C17 to C20 say which codecs that can happen to), the plain low entropy codecs (`C07_violated`) and the
transforms (`C11`, `C13`). -/
theorem C46_test_passes_partial (e : Env) (hw : Hw) (atoi : String → Int) (os : List Opt) (b : Mem × Mem)
    (ho : TestOf hw atoi os) (data : List Byte) (hf : e.file = some data) (hn : data.length ≤ 1073741824)
    (ce cd : Cpu) (junk : CodecT → Vec) (inp : Mem) (aIn aOut : Nat) (hi : Holds inp data)
    (hl : Library e data ce cd junk inp aIn aOut)
    (hr : ∀ c, (∀ o ∈ os, o.admits (what c)) → c ≠ .MemCopy → Roomy data ce junk inp c) :
    tool e hw atoi (os.flatMap Opt.words) b = 0 := by
  by_cases h0 : data.length = 0
  · obtain ⟨s, hs, _, hz, _, _⟩ := ho.state
    unfold tool exitCode
    rw [hs]
    simp [hz, hf, h0]
  · exact C45_no_false_alarm e hw atoi os b ho data hf (by omega)
      (fun c hsel hc a => library_ok hl hi (by omega) hn (hr c hsel hc) a)

/-- The largest file for which the output of a codec of the extreme family is known to fit
`rle_compress_bounds` (C01, C02, C17 to C19). -/
def fitsFile : CName → Nat
  | .x .. | .x128 .. => 1073741824
  | .r8 single packed => if single = packed then 10000 else 1073741824
  | .sl _ S _ => if S = 6 ∨ S = 8 then 1073741824 else if S = 3 then 10000 else 5000000
  | .sh _ S unb mode => if mode = .normal ∧ (S = 8 ∨ S = 4 ∧ unb = false) then 1073741824 else 10000000
  | _ => 0

theorem fitsFile_ok {f : CName} {g : DName} (h : pairs f g = true) (cpu : Cpu) (junk : Vec) (m0 : Mem) :
    FitsUpTo (fitsFile f) bounds (f.run cpu junk m0) := by
  have all : ∀ {c : Compress} {lim : Nat}, FitsBounds bounds c → FitsUpTo lim bounds c :=
    fun h inp n o h0 h1 _ h2 h3 => h inp n o h0 h1 h2 h3
  cases f with
  | r8 s p =>
    cases s <;> cases p
    · exact C17_rle8_small_partial ⟨false, false⟩ cpu
    · exact all (C17_packed_multi_bounds cpu)
    · exact all (C17_single_bounds cpu)
    · exact C17_rle8_small_partial ⟨true, true⟩ cpu
  | x S u p =>
    cases g <;> simp [pairs] at h
    obtain ⟨_, hv⟩ := h
    exact all (C01_multibyte_roundtrip ⟨S, u, p⟩ (by simpa [XCfg.valid] using hv) cpu cpu).1
  | sl N S u =>
    cases g <;> simp [pairs] at h
    obtain ⟨_, hv⟩ := h
    simp only [fitsFile]
    split
    · next hs => exact all (C18_symlut_bounds ⟨N, S, u⟩ hv hs cpu)
    · exact C18_symlut_small_partial ⟨N, S, u⟩ hv cpu
  | sh N S u m =>
    cases g <;> simp [pairs] at h
    obtain ⟨⟨_, hv⟩, _⟩ := h
    simp only [fitsFile]
    split
    · next hs => exact all (C19_short_bounds ⟨N, S, u, m⟩ hv hs.1 hs.2 cpu)
    · exact C19_short_small_partial ⟨N, S, u, m⟩ hv cpu
  | x128 u p => exact all (C02_rle128_roundtrip u p cpu cpu).1
  | rsh => intro inp n o h0 _ h1; exact absurd h1 (by show ¬n ≤ 0; omega)
  | mm => intro inp n o h0 _ h1; exact absurd h1 (by show ¬n ≤ 0; omega)
  | le s o => intro inp n o h0 _ h1; exact absurd h1 (by show ¬n ≤ 0; omega)

theorem lookup_find (n : String) : ∀ (l : List Row),
    (l.map fun r => (r.id, What.rle r.comp)).lookup n = (l.find? fun r => r.id == n).map fun r => What.rle r.comp
  | [] => rfl
  | r :: l => by
    simp only [List.map_cons, List.lookup_cons, List.find?_cons]
    rw [show (n == r.id) = (r.id == n) from BEq.comm]
    cases r.id == n
    · exact lookup_find n l
    · rfl

theorem rest_not_rle (n : String) (f : CName) : rest.lookup n ≠ some (.rle f) := by
  intro h
  have h1 : ∀ (l : List (String × What)), l.lookup n = some (.rle f) → (n, What.rle f) ∈ l := by
    intro l
    induction l with
    | nil => intro h; cases h
    | cons p l ih =>
      obtain ⟨k, w⟩ := p
      intro h
      rw [List.lookup_cons] at h
      split at h
      · next hk =>
        simp only [Option.some.injEq] at h
        have : n = k := by simpa using hk
        rw [h, this]
        exact List.mem_cons_self
      · exact List.mem_cons_of_mem _ (ih h)
  have := h1 rest h
  simp [rest] at this

/-- The row of a codec and what its name says are the same. -/
theorem rowOf_what {c : CodecT} {f : CName} (h : what c = .rle f) : ∃ row, rowOf c = some row ∧ row.comp = f := by
  unfold what at h
  rw [List.lookup_append, lookup_find] at h
  unfold rowOf
  cases hr : table.find? fun r => r.id == c.name with
  | some row =>
    rw [hr] at h
    simp only [Option.map_some, Option.some_or] at h
    exact ⟨row, rfl, by cases h; rfl⟩
  | none =>
    rw [hr] at h
    simp only [Option.map_none, Option.none_or] at h
    split at h
    · next w hw => subst h; exact absurd hw (rest_not_rle _ _)
    · cases h

/-- C46: with `--extreme` and any further options, the test of a file exits with 0 on every processor, if the
file is not larger than what the output of the selected codecs is known to fit for. -/
theorem C46_extreme_passes (e : Env) (hw : Hw) (atoi : String → Int) (os : List Opt) (b : Mem × Mem)
    (ho : TestOf hw atoi os) (hx : Opt.family .extreme ∈ os) (data : List Byte) (hf : e.file = some data)
    (hn : data.length ≤ 1073741824) (ce cd : Cpu) (junk : CodecT → Vec) (inp : Mem) (aIn aOut : Nat) (hi : Holds inp data)
    (hl : Library e data ce cd junk inp aIn aOut)
    (hfit : ∀ c f, (∀ o ∈ os, o.admits (what c)) → what c = .rle f → data.length ≤ fitsFile f) :
    tool e hw atoi (os.flatMap Opt.words) b = 0 := by
  by_cases h0 : data.length = 0
  · obtain ⟨s, hs, _, hz, _, _⟩ := ho.state
    unfold tool exitCode
    rw [hs]
    simp [hz, hf, h0]
  · refine C46_test_passes_partial e hw atoi os b ho data hf hn ce cd junk inp aIn aOut hi hl fun c hsel _ => ?_
    have hfam : (what c).family = some .extreme := hsel _ hx
    obtain ⟨f, hwf⟩ : ∃ f, what c = .rle f := by
      cases hw' : what c with
      | rle f => exact ⟨f, rfl⟩
      | mtf _ => rw [hw'] at hfam; cases hfam
      | bitMtf _ => rw [hw'] at hfam; cases hfam
      | copy => rw [hw'] at hfam; cases hfam
    obtain ⟨row, hrow, hcomp⟩ := rowOf_what hwf
    rw [hwf] at hfam
    have hle : ∀ s o, f ≠ .le s o := by rintro s o rfl; cases hfam
    refine ⟨row, hrow, by rw [hcomp]; exact hle _ _, by rw [hcomp]; exact hle _ _, fun buf => ?_⟩
    have key : table.all (fun r => pairs r.comp r.dec || r.comp == .le false false || r.comp == .le true false) = true := by
      decide +kernel
    have hp := List.all_eq_true.mp key row (rowOf_mem hrow)
    rw [hcomp] at hp
    simp only [Bool.or_eq_true, beq_iff_eq, hle, or_false] at hp
    obtain ⟨out, h1, h2⟩ := fitsFile_ok hp ce (junk c) buf inp data.length (toolBuffer data.length) (by omega) hn
      (hfit c f hsel hwf) (C45_buffer _).1 (toolBuffer_lt hn)
    refine ⟨out.length, out, by rw [hcomp]; exact h1, ?_⟩
    have hb : leBounds data.length ≤ toolBuffer data.length := (C45_buffer _).2.2.2.2
    unfold leBounds at hb
    unfold bounds at h2
    split at h2 <;> omega

theorem fitsFile_small {f : CName} (h : What.family (.rle f) = some .extreme) : 10000 ≤ fitsFile f := by
  cases f <;> simp only [What.family, reduceCtorEq, Option.some.injEq] at h <;> simp only [fitsFile] <;> (repeat' split) <;> omega

/-- C46: `hsrlekit file --test --extreme …` exits with 0 for every file of at most 10000 bytes, on every
processor, whatever further options are given and accepted. -/
theorem C46_extreme_small (e : Env) (hw : Hw) (atoi : String → Int) (os : List Opt) (b : Mem × Mem)
    (ho : TestOf hw atoi os) (hx : Opt.family .extreme ∈ os) (data : List Byte) (hf : e.file = some data)
    (hn : data.length ≤ 10000) (ce cd : Cpu) (junk : CodecT → Vec) (inp : Mem) (aIn aOut : Nat) (hi : Holds inp data)
    (hl : Library e data ce cd junk inp aIn aOut) : tool e hw atoi (os.flatMap Opt.words) b = 0 := by
  refine C46_extreme_passes e hw atoi os b ho hx data hf (by omega) ce cd junk inp aIn aOut hi hl fun c f hsel hwf => ?_
  have hfam : (what c).family = some .extreme := hsel _ hx
  rw [hwf] at hfam
  exact Nat.le_trans hn (fitsFile_small hfam)

/-- The options `--test --extreme --x-size 16`. -/
example (hw : Hw) (atoi : String → Int) : TestOf hw atoi [.test, .family .extreme, .size "16"] where
  accepted := rfl
  noFuzz := by decide
  documented := by decide +kernel
  short := by decide

/-- There is an environment that behaves like the library. -/
theorem library_exists (data : List Byte) (ce cd : Cpu) (junk : CodecT → Vec) (inp : Mem) (aIn aOut : Nat) :
    ∃ e : Env, e.file = some data ∧ Library e data ce cd junk inp aIn aOut :=
  ⟨{ file := some data
     comp := fun c n cap buf => match rowOf c with
       | none => (0, buf)
       | some row => match row.comp.run ce (junk c) buf (some inp) n true cap with
         | .ok ret out => (ret, fun i => if i < out.length then out.getD i 0 else buf i)
         | _ => (0, buf)
     dec := fun c size buf cap out => match rowOf c with
       | none => (0, buf)
       | some row => match row.dec.run cd ⟨some ((List.range cap).map buf), size, some out, cap, data.length + addSize, aIn, aOut⟩ with
         | .ok ret m => (ret, m)
         | _ => (0, out)
     moreComp := fun _ => 0
     moreDec := fun _ => 0
     on := fun _ => true
     fuzz := fun _ => true }, rfl,
   { comp := by intro c row buf ret out h1 h2; simp only [h1, h2]
     dec := by intro c row size buf out ret m h1 h2; simp only [h1, h2] }⟩

end Hrk.Cli
