import Verif.Vec
import Mathlib.Analysis.SpecialFunctions.Log.Base
import Mathlib.Analysis.SpecialFunctions.Log.Deriv

/-
`GetInformationRatio` (src/main.c:1221-1244): the number behind the column `R*H/log2(|S|)` of the benchmark. The
counters are the 64 bit counters of the code. `double` and `log2` are modelled by exact real numbers and the
exact logarithm: rounding is left out. A division by 0 (a `NaN` or an infinity in the code) is `none`.
-/

namespace Hrk.Info

/-- `hist[pData[i]]++` for every byte (src/main.c:1223-1227); the counters are `uint64_t`. -/
def hist (l : List Byte) : Byte → Nat :=
  l.foldl (fun h x => fun b => if b = x then (h b + 1) % 2 ^ 64 else h b) fun _ => 0

/-- `freq` (src/main.c:1237). -/
noncomputable def freq (h : Byte → Nat) (len : Nat) (i : Nat) : ℝ := (h (b8 i) : ℝ) / (len : ℝ)

/-- One round of the loop over the counters (src/main.c:1233-1241): `ret` and `histSymbolCount`. -/
noncomputable def infoStep (h : Byte → Nat) (len : Nat) (s : ℝ × Nat) (i : Nat) : ℝ × Nat :=
  if h (b8 i) ≠ 0 then (s.1 - freq h len i * Real.logb 2 (freq h len i), s.2 + 1) else s

/-- `GetInformationRatio` (src/main.c:1221-1244); `none`: the quotient is not a number. -/
noncomputable def infoRatio (l : List Byte) : Option ℝ :=
  let s := (List.range 256).foldl (infoStep (hist l) l.length) (0, 0)
  if Real.logb 2 (s.2 : ℝ) = 0 then none else some (s.1 / Real.logb 2 (s.2 : ℝ))

/-- The last column (src/main.c:1068, 1070) in percent, for a stream and the length of the file it was made from. -/
noncomputable def infoColumn (stream : List Byte) (fileSize : Nat) : Option ℝ :=
  (infoRatio stream).map fun r => ((stream.length : ℝ) / fileSize * r) * 100

/-! ### Specification -/

/-- The part of `l` that is `b`. -/
noncomputable def share (l : List Byte) (b : Byte) : ℝ := (l.count b : ℝ) / (l.length : ℝ)

/-- Shannon's entropy of the bytes of `l`, in bits per byte. -/
noncomputable def entropy (l : List Byte) : ℝ := ∑ b ∈ l.toFinset, share l b * Real.logb 2 (1 / share l b)

/-! ### Lemmas -/

theorem hist_go (l : List Byte) (h : Byte → Nat) (b : Byte) (hb : h b + l.length < 2 ^ 64) :
    l.foldl (fun h x => fun b => if b = x then (h b + 1) % 2 ^ 64 else h b) h b = h b + l.count b := by
  induction l generalizing h with
  | nil => simp
  | cons x l ih =>
    simp only [List.length_cons] at hb
    rw [List.foldl_cons, ih]
    · by_cases hx : b = x
      · subst hx
        rw [if_pos rfl, List.count_cons_self, Nat.mod_eq_of_lt (by omega)]; omega
      · rw [if_neg hx, List.count_cons_of_ne (fun h => hx h.symm)]
    · by_cases hx : b = x
      · rw [if_pos hx, Nat.mod_eq_of_lt (by omega)]; omega
      · rw [if_neg hx]; omega

theorem hist_eq (l : List Byte) (hl : l.length < 2 ^ 64) (b : Byte) : hist l b = l.count b := by
  unfold hist
  rw [hist_go l _ b (by simpa using hl)]; simp

theorem info_fold (h : Byte → Nat) (len : Nat) (ks : List Nat) (s : ℝ × Nat) :
    ks.foldl (infoStep h len) s
      = (s.1 + ((ks.filter fun i => h (b8 i) ≠ 0).map fun i => - (freq h len i * Real.logb 2 (freq h len i))).sum,
         s.2 + (ks.filter fun i => h (b8 i) ≠ 0).length) := by
  induction ks generalizing s with
  | nil => simp
  | cons k ks ih =>
    rw [List.foldl_cons, ih, infoStep]
    by_cases hk : h (b8 k) = 0
    · rw [if_neg (by simpa using hk), List.filter_cons_of_neg (by simpa using hk)]
    · rw [if_pos hk, List.filter_cons_of_pos (by simpa using hk), List.map_cons, List.sum_cons, List.length_cons]
      refine Prod.ext ?_ ?_
      · show _ - _ + _ = _ ; ring
      · show _ + 1 + _ = _ ; omega

theorem b8_inj {i j : Nat} (hi : i < 256) (hj : j < 256) (h : b8 i = b8 j) : i = j := by
  have := congrArg UInt8.toNat h
  simpa [b8, UInt8.toNat_ofNat, Nat.mod_eq_of_lt hi, Nat.mod_eq_of_lt hj] using this

theorem b8_toNat (b : Byte) : b8 b.toNat = b := by simp [b8]

/-- The numbers of the bytes that occur in `l`, in order, are the bytes that occur. -/
theorem filter_image (l : List Byte) :
    ((List.range 256).filter fun i => l.count (b8 i) ≠ 0).toFinset.image b8 = l.toFinset := by
  ext b
  simp only [Finset.mem_image, List.mem_toFinset, List.mem_filter, List.mem_range, decide_eq_true_eq]
  constructor
  · rintro ⟨i, ⟨_, hc⟩, rfl⟩
    exact List.count_pos_iff.mp (Nat.pos_of_ne_zero hc)
  · intro hb
    refine ⟨b.toNat, ⟨b.toNat_lt, ?_⟩, b8_toNat b⟩
    rw [b8_toNat]
    exact Nat.pos_iff_ne_zero.mp (List.count_pos_iff.mpr hb)

theorem filter_nodup (p : Nat → Bool) : ((List.range 256).filter p).Nodup := List.nodup_range.filter _

theorem filter_card (l : List Byte) :
    ((List.range 256).filter fun i => l.count (b8 i) ≠ 0).length = l.toFinset.card := by
  rw [← filter_image, Finset.card_image_of_injOn, List.toFinset_card_of_nodup (filter_nodup _)]
  intro i hi j hj h
  simp only [List.coe_toFinset, Set.mem_ofPred_eq, List.mem_filter, List.mem_range] at hi hj
  exact b8_inj hi.1 hj.1 h

theorem filter_sum (l : List Byte) (f : Byte → ℝ) :
    (((List.range 256).filter fun i => l.count (b8 i) ≠ 0).map fun i => f (b8 i)).sum = ∑ b ∈ l.toFinset, f b := by
  rw [← filter_image, Finset.sum_image, List.sum_toFinset _ (filter_nodup _)]
  intro i hi j hj h
  simp only [List.coe_toFinset, Set.mem_ofPred_eq, List.mem_filter, List.mem_range] at hi hj
  exact b8_inj hi.1 hj.1 h

/-- The two loops compute the entropy and the number of different bytes. -/
theorem info_loops (l : List Byte) (hl : l.length < 2 ^ 64) :
    (List.range 256).foldl (infoStep (hist l) l.length) (0, 0) = (entropy l, l.toFinset.card) := by
  have hh : hist l = fun b => l.count b := funext fun b => hist_eq l hl b
  rw [info_fold, hh]
  refine Prod.ext ?_ ?_
  · show 0 + _ = _
    rw [zero_add, entropy,
      ← filter_sum l fun b => share l b * Real.logb 2 (1 / share l b)]
    congr 1
    refine List.map_congr_left fun i _ => ?_
    show -(share l (b8 i) * Real.logb 2 (share l (b8 i))) = _
    rw [one_div, Real.logb_inv]; ring
  · show 0 + _ = _
    rw [Nat.zero_add]; exact filter_card l

theorem share_pos {l : List Byte} {b : Byte} (hb : b ∈ l) : 0 < share l b := by
  have h1 : 0 < l.count b := List.count_pos_iff.mpr hb
  have h2 : 0 < l.length := List.length_pos_of_mem hb
  exact div_pos (by exact_mod_cast h1) (by exact_mod_cast h2)

theorem share_sum {l : List Byte} (hl : l ≠ []) : ∑ b ∈ l.toFinset, share l b = 1 := by
  have h : ∑ b ∈ l.toFinset, l.count b = l.length := by
    simp
  have h2 : (l.length : ℝ) ≠ 0 := by
    have := List.length_pos_iff.mpr hl
    exact_mod_cast this.ne'
  unfold share
  rw [← Finset.sum_div, ← Nat.cast_sum, h, div_self h2]

/-- One summand of Gibbs' inequality. -/
theorem gibbs (k x : ℝ) (hk : 0 < k) (hx : 0 < x) :
    x * Real.log (1 / x) ≤ x * Real.log k + (1 / k - x) := by
  have h := Real.log_le_sub_one_of_pos (show 0 < 1 / (k * x) by positivity)
  rw [one_div, Real.log_inv, Real.log_mul hk.ne' hx.ne'] at h
  rw [one_div, Real.log_inv]
  have h2 := mul_le_mul_of_nonneg_left h hx.le
  have h3 : x * ((k * x)⁻¹ - 1) = 1 / k - x := by field_simp
  rw [h3] at h2; linarith

theorem gibbs_lt (k x : ℝ) (hk : 0 < k) (hx : 0 < x) (hne : x ≠ 1 / k) :
    x * Real.log (1 / x) < x * Real.log k + (1 / k - x) := by
  have hne1 : 1 / (k * x) ≠ 1 := by
    intro h
    apply hne
    rw [div_eq_one_iff_eq (by positivity)] at h
    field_simp; linarith
  have h := Real.log_lt_sub_one_of_pos (show 0 < 1 / (k * x) by positivity) hne1
  rw [one_div, Real.log_inv, Real.log_mul hk.ne' hx.ne'] at h
  rw [one_div, Real.log_inv]
  have h2 := mul_lt_mul_of_pos_left h hx
  have h3 : x * ((k * x)⁻¹ - 1) = 1 / k - x := by field_simp
  rw [h3] at h2; linarith

/-- The entropy with the natural logarithm. -/
theorem entropy_nat (l : List Byte) :
    entropy l * Real.log 2 = ∑ b ∈ l.toFinset, share l b * Real.log (1 / share l b) := by
  unfold entropy
  rw [Finset.sum_mul]
  refine Finset.sum_congr rfl fun b _ => ?_
  have h2 : Real.log 2 ≠ 0 := (Real.log_pos (by norm_num)).ne'
  unfold Real.logb
  field_simp

theorem right_sum {l : List Byte} (hl : l ≠ []) (c : ℝ) :
    ∑ b ∈ l.toFinset, (share l b * c + (1 / (l.toFinset.card : ℝ) - share l b)) = c := by
  have hc : (l.toFinset.card : ℝ) ≠ 0 := by
    have : 0 < l.toFinset.card := by
      rw [Finset.card_pos, List.toFinset_nonempty_iff]; exact hl
    exact_mod_cast this.ne'
  rw [Finset.sum_add_distrib, Finset.sum_sub_distrib, ← Finset.sum_mul, share_sum hl, Finset.sum_const, nsmul_eq_mul,
    mul_one_div_cancel hc]
  ring

theorem card_pos {l : List Byte} (hl : l ≠ []) : (0 : ℝ) < l.toFinset.card := by
  have : 0 < l.toFinset.card := by
    rw [Finset.card_pos, List.toFinset_nonempty_iff]; exact hl
  exact_mod_cast this

theorem entropy_le {l : List Byte} (hl : l ≠ []) : entropy l ≤ Real.logb 2 l.toFinset.card := by
  have h2 : 0 < Real.log 2 := Real.log_pos (by norm_num)
  unfold Real.logb
  rw [le_div_iff₀ h2, entropy_nat, ← right_sum hl (Real.log l.toFinset.card)]
  exact Finset.sum_le_sum fun b hb => gibbs _ _ (card_pos hl) (share_pos (List.mem_toFinset.mp hb))

theorem entropy_lt {l : List Byte} (hl : l ≠ []) {b : Byte} (hb : b ∈ l)
    (hne : share l b ≠ 1 / (l.toFinset.card : ℝ)) : entropy l < Real.logb 2 l.toFinset.card := by
  have h2 : 0 < Real.log 2 := Real.log_pos (by norm_num)
  unfold Real.logb
  rw [lt_div_iff₀ h2, entropy_nat, ← right_sum hl (Real.log l.toFinset.card)]
  exact Finset.sum_lt_sum (fun b hb => gibbs _ _ (card_pos hl) (share_pos (List.mem_toFinset.mp hb)))
    ⟨b, List.mem_toFinset.mpr hb, gibbs_lt _ _ (card_pos hl) (share_pos hb) hne⟩

theorem entropy_eq {l : List Byte} (hl : l ≠ []) (h : ∀ b ∈ l, share l b = 1 / (l.toFinset.card : ℝ)) :
    entropy l = Real.logb 2 l.toFinset.card := by
  unfold entropy
  rw [Finset.sum_congr rfl fun b hb => by rw [h b (List.mem_toFinset.mp hb)], Finset.sum_const, nsmul_eq_mul,
    ← mul_assoc, mul_one_div_cancel (card_pos hl).ne', one_mul, one_div_one_div]

theorem share_le_one {l : List Byte} {b : Byte} (hb : b ∈ l) : share l b ≤ 1 := by
  have h2 : 0 < l.length := List.length_pos_of_mem hb
  unfold share
  rw [div_le_one (by exact_mod_cast h2)]
  exact_mod_cast List.count_le_length

/-- Bytes that are not all equal: every share is less than one. -/
theorem share_lt_one {l : List Byte} (h2 : 2 ≤ l.toFinset.card) {b : Byte} (hb : b ∈ l) : share l b < 1 := by
  refine lt_of_le_of_ne (share_le_one hb) fun h => ?_
  have hl : l ≠ [] := List.ne_nil_of_mem hb
  have h3 : 1 < l.toFinset.card := h2
  obtain ⟨c, hc, hcb⟩ := Finset.exists_mem_ne h3 b
  have h4 := share_sum hl
  rw [← Finset.add_sum_erase _ _ (List.mem_toFinset.mpr hb), h] at h4
  have h5 : 0 < ∑ x ∈ l.toFinset.erase b, share l x :=
    Finset.sum_pos (fun x hx => share_pos (List.mem_toFinset.mp (Finset.mem_of_mem_erase hx)))
      ⟨c, Finset.mem_erase.mpr ⟨hcb, hc⟩⟩
  linarith

theorem entropy_pos {l : List Byte} (h2 : 2 ≤ l.toFinset.card) : 0 < entropy l := by
  unfold entropy
  refine Finset.sum_pos (fun b hb => ?_) (Finset.card_pos.mp (by omega))
  have hb' := List.mem_toFinset.mp hb
  refine mul_pos (share_pos hb') ?_
  rw [one_div, Real.logb_inv, neg_pos]
  exact Real.logb_neg (by norm_num) (share_pos hb') (share_lt_one h2 hb')

theorem logb_card_pos {l : List Byte} (h2 : 2 ≤ l.toFinset.card) : 0 < Real.logb 2 (l.toFinset.card : ℝ) :=
  Real.logb_pos (by norm_num) (by exact_mod_cast h2)

end Hrk.Info
