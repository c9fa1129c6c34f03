/-
Shared vocabulary of the model: bytes, little endian words, readers, memories,
and the loop combinator.
-/

namespace Hrk

/-- One byte (`uint8_t`) (every buffer of src/rle.h:53-466). -/
abbrev Byte := UInt8

/-- Memory seen from a base pointer. Models `const uint8_t *pIn` / `uint8_t *pOut` (the parameters of src/rle.h:53-466). -/
abbrev Mem := Nat → Byte

/-- The `k` bytes at `m + a`. Models `memcpy(dst, pIn + a, k)` reads and
`*(symbol_t *)&pIn[a]` loads (symbols are kept as byte lists) (e.g. src/rleX_extreme_cpu_encode.h:305-307). -/
def rd (m : Mem) (a k : Nat) : List Byte := (List.range k).map fun j => m (a + j)

/-- The run of `c` bytes obtained by repeating the symbol `s` from its first
byte on. This is what a run record of the format stands for. -/
def runBytes (s : List Byte) (c : Nat) : List Byte :=
  (List.range c).map fun k => s.getD (k % s.length) 0

/-- `*(uint8_t *)p = (uint8_t)x` (e.g. src/rleX_extreme_cpu_encode.h:281, 299). -/
def b8 (x : Nat) : Byte := UInt8.ofNat x

/-- `*(uint16_t *)p = (uint16_t)x`, little endian (e.g. src/rleX_Xsl.h:215, 228, 242). -/
def le16 (x : Nat) : List Byte := [b8 x, b8 (x / 256)]

/-- `*(uint32_t *)p = (uint32_t)x`, little endian (e.g. src/rleX_extreme_cpu_encode.h:283, 296, 301). -/
def le32 (x : Nat) : List Byte := [b8 x, b8 (x / 256), b8 (x / 65536), b8 (x / 16777216)]

/-- Read `*p++` as `uint8_t`; `none` when the read leaves the source (e.g. src/rleX_extreme_cpu_decode.h:57-58). -/
def rdU8 : List Byte → Option (Nat × List Byte)
  | a :: r => some (a.toNat, r)
  | _ => none

/-- Read a little endian `uint16_t` (e.g. src/rleX_Xsl.h:582, 730, 741). -/
def rdU16 : List Byte → Option (Nat × List Byte)
  | a :: b :: r => some (a.toNat + 256 * b.toNat, r)
  | _ => none

/-- Read a little endian `uint32_t` (e.g. src/rleX_extreme_cpu.h:87-88). -/
def rdU32 : List Byte → Option (Nat × List Byte)
  | a :: b :: c :: d :: r =>
    some (a.toNat + 256 * b.toNat + 65536 * c.toNat + 16777216 * d.toNat, r)
  | _ => none

/-- Read `k` bytes (a symbol) (e.g. src/rleX_extreme_cpu_decode.h:46-56). -/
def takeN (k : Nat) (src : List Byte) : Option (List Byte × List Byte) :=
  if k ≤ src.length then some (src.take k, src.drop k) else none

/-- `while`/`goto` loops: run `body` until it returns a result; `none` stands
for "still running after `fuel` steps" (the `while` loops of the encoders and decoders, e.g. src/rleX_extreme_cpu_decode.h:41). -/
def loop {σ ρ : Type} (body : σ → σ ⊕ ρ) : Nat → σ → Option ρ
  | 0, _ => none
  | f + 1, s => match body s with
    | .inl s' => loop body f s'
    | .inr r => some r

/-- Overwrite `len` bytes at `a` with `f 0, f 1, ...` (a vector store) (e.g. the stores of src/rleX_extreme_common.h:30-170). -/
def wr (m : Mem) (a len : Nat) (f : Nat → Byte) : Mem :=
  fun k => if a ≤ k ∧ k < a + len then f (k - a) else m k

/-! ### Lemmas -/

/-- Case analysis on what a loop body returned. -/
def Post {σ ρ : Type} (x : σ ⊕ ρ) (L : σ → Prop) (R : ρ → Prop) : Prop :=
  match x with
  | .inl s => L s
  | .inr r => R r

@[simp] theorem Post_inl {σ ρ : Type} (s : σ) (L : σ → Prop) (R : ρ → Prop) :
    Post (.inl s) L R = L s := rfl
@[simp] theorem Post_inr {σ ρ : Type} (r : ρ) (L : σ → Prop) (R : ρ → Prop) :
    Post (.inr r) L R = R r := rfl

theorem loop_rule {σ ρ : Type} {body : σ → σ ⊕ ρ} (I : σ → Prop) (Q : ρ → Prop) (μ : σ → Nat)
    (h : ∀ s, I s → Post (body s) (fun s' => I s' ∧ μ s' < μ s) Q) :
    ∀ f s, I s → μ s < f → ∃ r, loop body f s = some r ∧ Q r := by
  intro f
  induction f with
  | zero => intro s _ hf; omega
  | succ f ih =>
    intro s hI hf
    have h1 := h s hI
    unfold loop
    split
    · rename_i s' he
      rw [he] at h1
      exact ih s' h1.1 (by have := h1.2; omega)
    · rename_i r he
      rw [he] at h1
      exact ⟨r, rfl, h1⟩

/-- Partial correctness version: no measure needed. -/
theorem loop_rule_partial {σ ρ : Type} {body : σ → σ ⊕ ρ} (I : σ → Prop) (Q : ρ → Prop)
    (h : ∀ s, I s → Post (body s) I Q) :
    ∀ f s r, I s → loop body f s = some r → Q r := by
  intro f
  induction f with
  | zero => intro s r _ he; simp [loop] at he
  | succ f ih =>
    intro s r hI he
    have h1 := h s hI
    unfold loop at he
    split at he
    · rename_i s' hb
      rw [hb] at h1
      exact ih s' r h1 he
    · rename_i r' hb
      rw [hb] at h1
      cases he
      exact h1

theorem loop_congr {σ ρ : Type} {b₁ b₂ : σ → σ ⊕ ρ} (I : σ → Prop)
    (h : ∀ s, I s → b₁ s = b₂ s ∧ ∀ s', b₁ s = .inl s' → I s') :
    ∀ f s, I s → loop b₁ f s = loop b₂ f s := by
  intro f
  induction f with
  | zero => intro s _; rfl
  | succ f ih =>
    intro s hI
    obtain ⟨h1, h2⟩ := h s hI
    unfold loop
    rw [← h1]
    split
    · rename_i s' hb
      exact ih s' (h2 s' hb)
    · rfl

theorem loop_mono {σ ρ : Type} {body : σ → σ ⊕ ρ} :
    ∀ f g s r, loop body f s = some r → f ≤ g → loop body g s = some r := by
  intro f
  induction f with
  | zero => intro g s r h; simp [loop] at h
  | succ f ih =>
    intro g s r h hg
    obtain ⟨g, rfl⟩ : ∃ k, g = k + 1 := ⟨g - 1, by omega⟩
    unfold loop at h ⊢
    split
    · rename_i s' hb
      rw [hb] at h
      exact ih g s' r h (by omega)
    · rename_i r' hb
      rw [hb] at h
      exact h

@[simp] theorem b8_toNat (x : Nat) : (b8 x).toNat = x % 256 := by
  simp [b8, UInt8.toNat_ofNat']

theorem b8_of_toNat (b : Byte) : b8 b.toNat = b := by
  apply UInt8.toNat_inj.mp
  have := b.toNat_lt
  rw [b8_toNat]; omega

@[simp] theorem rd_length (m : Mem) (a k : Nat) : (rd m a k).length = k := by simp [rd]
@[simp] theorem runBytes_length (s : List Byte) (c : Nat) : (runBytes s c).length = c := by
  simp [runBytes]
@[simp] theorem le16_length (x : Nat) : (le16 x).length = 2 := rfl
@[simp] theorem le32_length (x : Nat) : (le32 x).length = 4 := rfl

theorem rd_append (m : Mem) (a k l : Nat) : rd m a k ++ rd m (a + k) l = rd m a (k + l) := by
  simp [rd, List.range_add, Nat.add_assoc]

@[simp] theorem rd_zero (m : Mem) (a : Nat) : rd m a 0 = [] := by simp [rd]

theorem rd_getElem? (m : Mem) (a k j : Nat) :
    (rd m a k)[j]? = if j < k then some (m (a + j)) else none := by
  simp only [rd, List.getElem?_map]
  split
  · next h => simp [h]
  · next h => simp [Nat.le_of_not_lt h]

theorem rd_getD (m : Mem) (a k j : Nat) (d : Byte) (h : j < k) :
    (rd m a k).getD j d = m (a + j) := by
  simp only [List.getD, rd_getElem?, h, if_true]; rfl

theorem rd_getElem (m : Mem) (a k j : Nat) (h : j < (rd m a k).length) :
    (rd m a k)[j] = m (a + j) := by
  simp [rd]

theorem rd_congr {m₁ m₂ : Mem} {a k : Nat} (h : ∀ j, a ≤ j → j < a + k → m₁ j = m₂ j) :
    rd m₁ a k = rd m₂ a k := by
  simp only [rd]
  apply List.map_congr_left
  intro j hj
  have := List.mem_range.mp hj
  exact h _ (by omega) (by omega)

/-- A stretch of memory equals the run of `s` iff it does so byte by byte. -/
theorem rd_eq_runBytes {m : Mem} {a c : Nat} {s : List Byte}
    (h : ∀ k, k < c → m (a + k) = s.getD (k % s.length) 0) : rd m a c = runBytes s c := by
  simp only [rd, runBytes]
  apply List.map_congr_left
  intro j hj
  exact h j (List.mem_range.mp hj)

theorem runBytes_getElem? (s : List Byte) (c k : Nat) :
    (runBytes s c)[k]? = if k < c then some (s.getD (k % s.length) 0) else none := by
  simp only [runBytes, List.getElem?_map]
  split
  · next h => simp [h]
  · next h => simp [Nat.le_of_not_lt h]

@[simp] theorem rdU8_cons (b : Byte) (r : List Byte) : rdU8 (b :: r) = some (b.toNat, r) := rfl

@[simp] theorem rdU16_le16 (x : Nat) (r : List Byte) : rdU16 (le16 x ++ r) = some (x % 65536, r) := by
  simp only [le16, rdU16, List.cons_append, List.nil_append, b8_toNat, Option.some.injEq,
    Prod.mk.injEq, and_true]
  omega

@[simp] theorem rdU32_le32 (x : Nat) (r : List Byte) :
    rdU32 (le32 x ++ r) = some (x % 4294967296, r) := by
  simp only [le32, rdU32, List.cons_append, List.nil_append, b8_toNat, Option.some.injEq,
    Prod.mk.injEq, and_true]
  omega

theorem takeN_append (s r : List Byte) {k : Nat} (h : s.length = k) :
    takeN k (s ++ r) = some (s, r) := by
  subst h
  simp [takeN]

theorem wr_in {m : Mem} {a len : Nat} {f : Nat → Byte} {k : Nat} (h₁ : a ≤ k) (h₂ : k < a + len) :
    wr m a len f k = f (k - a) := by simp [wr, h₁, h₂]

theorem wr_out {m : Mem} {a len : Nat} {f : Nat → Byte} {k : Nat} (h : k < a ∨ a + len ≤ k) :
    wr m a len f k = m k := by
  unfold wr
  split
  · next h' => omega
  · rfl

end Hrk
