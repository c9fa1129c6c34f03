import Verif.PickBest
import Verif.PropsSize

/-
C52: how large a stream with a single run symbol is, in terms of the number of bytes that are not that symbol.
-/

namespace Hrk

/-! ### Specification -/

/-- The symbol stored at position `pos` of the stream explains the size of the stream: every other byte of the input costs at least one
byte and at most `a`, and on top of that there are at most `b` bytes. -/
def SizeByStored (pos a b : Nat) (comp : Compress) : Prop :=
  ∀ (inp : Mem) (n outSize ret : Nat) (out : List Byte), comp (some inp) n true outSize = .ok ret out →
    ∃ v, out[pos]? = some v ∧ others v inp n ≤ out.length ∧ out.length ≤ a * others v inp n + b

/-- An input of which all but `k` bytes are `v` takes at most `a * k + b` bytes. -/
def SizeByOthers (a b : Nat) (ok : Byte → Mem → Prop) (comp : Compress) : Prop :=
  ∀ (inp : Mem) (n outSize ret : Nat) (out : List Byte) (v : Byte), n ≤ maxInput → comp (some inp) n true outSize = .ok ret out →
    ok v inp → out.length ≤ a * others v inp n + b

/-! ### What the emission rules cost -/

/-- The rule only writes records for the symbol `b` and keeps the state. -/
def Only {σ : Type} (e : Emit σ) (fs0 : σ) (b : Byte) : Prop :=
  ∀ sym cnt lits bytes fs', e fs0 sym cnt lits = some (bytes, fs') → sym = [b] ∧ fs' = fs0

theorem cn_add_le (p : Nat → Bool) (x k : Nat) : cn p (x + k) ≤ cn p x + k := by
  induction k with
  | zero => exact Nat.le_refl _
  | succ k ih => rw [← Nat.add_assoc, cn_succ]; split <;> omega

theorem cn_dif_run {b : Byte} {inp : Mem} {n a cnt : Nat} (h : rd inp a cnt = runBytes [b] cnt) :
    cn (dif b inp n) (a + cnt) = cn (dif b inp n) a := by
  have hk : ∀ k, k < cnt → inp (a + k) = b := by
    intro k hk
    have := congrArg (fun l => l.getD k 0) h
    rw [rd_getD _ _ _ _ _ hk, runBytes_getD hk] at this
    simpa [Nat.mod_one] using this
  clear h
  induction cnt with
  | zero => rfl
  | succ c ih =>
    have hd : ¬ dif b inp n (a + c) = true := by
      rw [dif_iff]
      exact fun h => h.2 (hk c (by omega))
    rw [← Nat.add_assoc, cn_succ, ih fun k h => hk k (by omega), if_neg hd, Nat.add_zero]

theorem Only.closed {σ : Type} {e : Emit σ} {fs0 : σ} {b : Byte} (h : Only e fs0 b) (inp : Mem) (n S : Nat) (unb : Bool) (B : Nat) :
    Closed e inp S unb B fun fs out last => fs = fs0 ∧ cn (dif b inp n) last ≤ out.length := by
  rintro fs out last sym cnt lits bytes fs' ⟨rfl, hc⟩ _ _ _ hrun he
  obtain ⟨rfl, rfl⟩ := h _ _ _ _ _ he
  refine ⟨rfl, ?_⟩
  rw [cn_dif_run hrun]
  have := cn_add_le (dif b inp n) last lits
  simp only [List.length_append, rd_length]
  omega

theorem Cdc.OK.others_le {σ : Type} {c : Cdc σ} {P D : σ → Prop} (h : c.OK P D) (cpu : Cpu) (inp : Mem) (n : Nat) {b : Byte}
    (h1 : ∀ e ∈ c.F.emit :: c.extra, Only e (c.first inp n) b) (h2 : Only c.emitEnd (c.first inp n) b) {r : List Byte}
    (hr : c.body cpu inp n = some r) : others b inp n ≤ r.length := by
  obtain ⟨r', g1, fs, out, last, T, ⟨_, g2⟩, g3, g4, g5, g6⟩ := h.body_scan cpu inp n (n + c.S) _ (Nat.le_refl _)
    (fun e he => (h1 e he).closed inp n c.S c.unb _) (h2.closed inp n c.S c.unb _) ⟨rfl, by simp [cn_zero]⟩
  rw [g1] at hr
  cases hr
  rw [List.length_append, ← dif_total]
  have m := cn_mono (dif b inp n) g3
  rcases g6 with ⟨rfl, rfl⟩ | rfl
  · rw [List.length_append]; omega
  · have := cn_add_le (dif b inp n) last (T - last)
    rw [show last + (T - last) = T by omega] at this
    simp only [List.length_append, rd_length]
    omega

section
variable {packed : Bool} {b : Byte}

theorem R8Cfg.cost1 : EmitCost1 (R8Cfg.emit ⟨true, packed⟩) ⟨true, [b]⟩ b 11 where
  zero := fun lits => by
    unfold R8Cfg.emit
    cases packed <;> simp [R8Cfg.short, r8short]
  none := fun cnt lits h => by
    unfold R8Cfg.emit at h
    by_cases hc : cnt ≥ 10
    · by_cases hl : lits + 1 ≤ 255
      · cases packed <;> simp [R8Cfg.short, r8short, hl] at h <;> omega
      · cases packed <;> simp [R8Cfg.short, R8Cfg.long, r8short, hl] at h <;> omega
    · omega
  some := fun cnt lits bytes fs' h => by
    have e3 := cnt8_len (R8Cfg.stored ⟨true, packed⟩ cnt)
    unfold R8Cfg.emit at h
    repeat' split at h
    all_goals first
      | (cases h; done)
      | (simp only [Option.some.injEq, Prod.mk.injEq] at h
         obtain ⟨rfl, rfl⟩ := h
         refine ⟨?_, rfl⟩
         simp [R8Cfg.sRec, R8Cfg.lRec, offL8]
         omega)
      | simp_all

theorem R8Cfg.cost1T : EmitCost1 (R8Cfg.emitT ⟨true, packed⟩) ⟨true, [b]⟩ b 11 where
  zero := fun lits => by
    unfold R8Cfg.emitT
    cases packed <;> simp [R8Cfg.short, R8Cfg.long, r8short]
  none := fun cnt lits h => by
    unfold R8Cfg.emitT at h
    by_cases hc : cnt ≥ 10
    · have hl : cnt ≥ R8Cfg.long ⟨true, packed⟩ := by cases packed <;> simp [R8Cfg.long] <;> omega
      simp [hl] at h
      split at h <;> cases h
    · omega
  some := fun cnt lits bytes fs' h => by
    have e3 := cnt8_len (R8Cfg.stored ⟨true, packed⟩ cnt)
    unfold R8Cfg.emitT at h
    repeat' split at h
    all_goals first
      | (cases h; done)
      | (simp only [Option.some.injEq, Prod.mk.injEq] at h
         obtain ⟨rfl, rfl⟩ := h
         refine ⟨?_, rfl⟩
         simp [R8Cfg.sRec, R8Cfg.lRec, offL8]
         omega)
      | simp_all

theorem R8Cfg.only : Only (R8Cfg.emit ⟨true, packed⟩) ⟨true, [b]⟩ b := by
  intro sym cnt lits bytes fs' h
  unfold R8Cfg.emit at h
  simp only [ne_eq, not_true_eq_false, if_false, if_true] at h
  by_cases hs : [b] = sym
  · subst hs
    exact ⟨rfl, ((R8Cfg.cost1 (packed := packed)).some cnt lits bytes fs' (by unfold R8Cfg.emit; simpa using h)).2⟩
  · rw [if_pos (Or.inl hs)] at h; cases h

theorem R8Cfg.onlyT : Only (R8Cfg.emitT ⟨true, packed⟩) ⟨true, [b]⟩ b := by
  intro sym cnt lits bytes fs' h
  unfold R8Cfg.emitT at h
  simp only [ne_eq, not_true_eq_false, if_false, if_true] at h
  by_cases hs : [b] = sym
  · subst hs
    exact ⟨rfl, ((R8Cfg.cost1T (packed := packed)).some cnt lits bytes fs' (by unfold R8Cfg.emitT; simpa using h)).2⟩
  · rw [if_pos hs] at h; cases h

theorem R8Cfg.onlyF : Only (R8Cfg.emitF ⟨true, packed⟩) ⟨true, [b]⟩ b := by
  intro sym cnt lits bytes fs' h
  unfold R8Cfg.emitF at h
  split at h
  · next hc =>
    obtain ⟨_, h2, _⟩ := hc
    simp only [R8St.mk.injEq, true_and] at h2
    cases h
    exact ⟨h2.symm, rfl⟩
  · cases h

end

/-- The size in terms of the symbol that is picked, and where it is stored. -/
theorem R8Cfg.size_pick {packed : Bool} {cpu : Cpu} {inp : Mem} {n outSize ret : Nat} {out : List Byte}
    (he : R8Cfg.compress ⟨true, packed⟩ cpu (some inp) n true outSize = .ok ret out) :
    out[9]? = some (pick inp n) ∧ others (pick inp n) inp n ≤ out.length ∧ out.length ≤ 13 * others (pick inp n) inp n + 32 := by
  obtain ⟨_, r, g2, rfl, _⟩ := apiCompress_len _ _ _ _ _ _ he
  have hF : (R8Cfg.cdc ⟨true, packed⟩).first inp n = ⟨true, [pick inp n]⟩ := rfl
  have hlow : others (pick inp n) inp n ≤ r.length := by
    refine (R8Cfg.cdc_ok ⟨true, packed⟩).others_le cpu inp n ?_ ?_ g2
    · rw [hF]
      intro e h
      simp only [R8Cfg.cdc, List.mem_cons, List.not_mem_nil, or_false] at h
      rcases h with rfl | rfl | rfl
      · exact R8Cfg.only
      · exact R8Cfg.onlyT
      · exact R8Cfg.onlyF
    · rw [hF]; exact R8Cfg.onlyT
  unfold Cdc.body at g2
  cases hs : (R8Cfg.cdc ⟨true, packed⟩).run cpu inp n with
  | none => rw [hs] at g2; cases g2
  | some s =>
    rw [hs] at g2
    simp only [Option.map_some, Option.some.injEq] at g2
    subst g2
    have hs' := hs
    change R8Cfg.run ⟨true, packed⟩ cpu inp n = some s at hs'
    rw [R8Cfg.run_eq, if_pos rfl] at hs'
    have := finishW_single (D := 11) (E := 10) (endRun := R8Cfg.endRun ⟨true, packed⟩) (endLit := R8Cfg.endLit ⟨true, packed⟩)
      (R8Cfg.wrules ⟨true, packed⟩ rfl inp n) R8Cfg.cost1 R8Cfg.cost1T (by intro cnt lits; simp [R8Cfg.force, offL8])
      (by cases packed <;> simp [R8Cfg.long]) (by cases packed <;> simp [R8Cfg.short, r8short])
      (by cases packed <;> simp [R8Cfg.short, r8short]) (by omega) (by simp [R8Cfg.endRun]) (by intro k; simp [R8Cfg.endLit]) s hs'
    refine ⟨?_, ?_, ?_⟩
    · simp [R8Cfg.cdc, R8Cfg.pre, R8Cfg.first, le32]
    · simp only [List.length_append] at hlow ⊢; omega
    · have hp : ((R8Cfg.cdc ⟨true, packed⟩).pre ((R8Cfg.cdc ⟨true, packed⟩).first inp n)).length = 2 := rfl
      have hq : (finish (R8Cfg.cdc ⟨true, packed⟩).emitEnd (R8Cfg.cdc ⟨true, packed⟩).F.endRun (R8Cfg.cdc ⟨true, packed⟩).F.endLit inp s).length
          ≤ (11 + 2) * others (pick inp n) inp n + 11 + 10 + 1 := this
      simp only [List.length_append, le32_length] at hp hq ⊢
      omega

/-! ### The short codec -/

section
variable {c : ShCfg} {b : Byte}

theorem Lut.use_single : (Lut.find [[b]] [b] = 0) ∧ Lut.use [[b]] 0 [b] = [[b]] := by
  simp [Lut.find, Lut.use]

theorem ShCfg.cost1 (hc : c.valid) (hm : c.mode = .single) : EmitCost1 c.emit [[b]] b 11 where
  zero := fun lits => c.emit_small _ _ 0 lits (by omega)
  none := fun cnt lits h => by
    have hl : c.long = 11 := by unfold ShCfg.long; rw [if_neg (by simp [(hc.2.2.2.1 hm).1]), if_pos hm]
    unfold ShCfg.emit at h
    rw [if_neg (by simp)] at h
    split at h
    · cases h
    · omega
  some := fun cnt lits bytes fs' h => by
    have hS := (hc.2.2.2.1 hm).2
    obtain ⟨h1, h2⟩ := c.emit_len (sym := [b]) (by simp [hS]) h
    have e1 := extOf_len 511 (c.stored cnt)
    have e2 := extOf_len c.tinyR (lits + 2)
    constructor
    · rw [show c.news (Lut.find [[b]] [b]) = false by unfold ShCfg.news; rw [hm]; rfl] at h1
      simp only [Bool.false_eq_true, if_false] at h1
      split at h1 <;> omega
    · unfold ShCfg.emit at h
      rw [if_neg (by simp), if_pos h2] at h
      simp only [Option.some.injEq, Prod.mk.injEq] at h
      rw [← h.2, Lut.use_single.1, Lut.use_single.2]

theorem ShCfg.only (hc : c.valid) (hm : c.mode = .single) : Only c.emit [[b]] b := by
  intro sym cnt lits bytes fs' h
  by_cases hs : [[b]] = [sym]
  · have hs' : sym = [b] := by cases hs; rfl
    subst hs'
    exact ⟨rfl, ((ShCfg.cost1 hc hm).some cnt lits bytes fs' h).2⟩
  · unfold ShCfg.emit at h
    rw [if_pos ⟨hm, hs⟩] at h
    cases h

end

theorem ShCfg.size_pick {c : ShCfg} (hc : c.valid) (hm : c.mode = .single) {cpu : Cpu} {inp : Mem} {n outSize ret : Nat} {out : List Byte}
    (he : c.compress cpu (some inp) n true outSize = .ok ret out) :
    out[8]? = some (pick inp n) ∧ others (pick inp n) inp n ≤ out.length ∧ out.length ≤ 13 * others (pick inp n) inp n + 30 := by
  obtain ⟨_, r, g2, rfl, _⟩ := apiCompress_len _ _ _ _ _ _ he
  have hF : c.cdc.first inp n = [[pick inp n]] := by show c.first inp n = _; unfold ShCfg.first; rw [if_pos hm]
  have hP : c.cdc.pre (c.cdc.first inp n) = [pick inp n] := by
    rw [hF]; show c.pre _ = _; unfold ShCfg.pre; rw [if_pos hm]; rfl
  have hlow : others (pick inp n) inp n ≤ r.length := by
    refine (c.cdc_ok hc).others_le cpu inp n ?_ ?_ g2
    · rw [hF]
      intro e h
      simp only [ShCfg.cdc, List.mem_cons, List.not_mem_nil, or_false] at h
      subst h
      exact ShCfg.only hc hm
    · rw [hF]; exact ShCfg.only hc hm
  unfold Cdc.body at g2
  cases hs : c.cdc.run cpu inp n with
  | none => rw [hs] at g2; cases g2
  | some s =>
    rw [hs, hP] at g2
    simp only [Option.map_some, Option.some.injEq] at g2
    subst g2
    have hs' : runS8 c.fmt c.first c.minR pick inp n = some s := by
      rw [← hs, ← runS8I_eq]
      show _ = c.run cpu inp n
      unfold ShCfg.run
      rw [hm]
    have hmin : c.minR = 2 := by unfold ShCfg.minR; rw [if_pos (Or.inr hm)]
    have hn0 : c.news 0 = false := by unfold ShCfg.news; rw [hm]; rfl
    have hcost : EmitCost1 c.fmt.emit (c.first inp n) (pick inp n) 11 := by
      rw [show c.first inp n = [[pick inp n]] from hF]; exact ShCfg.cost1 hc hm
    have hq : (finish c.cdc.emitEnd c.cdc.F.endRun c.cdc.F.endLit inp s).length ≤ (11 + 2) * others (pick inp n) inp n + 11 + 9 + 1 :=
      finishS8_single (E := 9) c.fmt c.first pick (by omega) (by omega) hcost
        (by show c.endRun.length ≤ 9; unfold ShCfg.endRun; rw [hn0]; simp)
        (by intro k; show (c.endLit k).length ≤ 9; unfold ShCfg.endLit; rw [hn0]; simp) s hs'
    refine ⟨?_, ?_, ?_⟩
    · simp [le32]
    · simp only [List.length_append] at hlow ⊢; omega
    · simp only [List.length_append, le32_length, List.length_cons, List.length_nil] at hq ⊢
      omega

/-! ### The symbol 0 -/

/-- Four bytes 1, and then only bytes 0. -/
def onesZeros : Mem := fun i => if i < 4 then 1 else 0

/-- The states the heuristic goes through on `onesZeros`. -/
def ozInv (s : PickS) : Prop :=
  (s.i = 0 ∧ s.count = 0 ∧ s.last = 0xFE ∧ s.prob = (fun _ => 0) ∧ s.pcount = fun b => if b = 0 then 4294967295 else 0) ∨
  (s.search = false ∧ s.i = 1 ∧ s.count = 1 ∧ s.last = 1 ∧ s.prob = (fun _ => 0) ∧ s.pcount = fun b => if b = 0 then 4294967295 else 0) ∨
  (s.search = true ∧ s.i = 4 ∧ s.prob = setB (fun _ => 0) 1 4 ∧ s.pcount = setB (fun b => if b = 0 then 4294967295 else 0) 1 1) ∨
  (s.search = false ∧ 4 ≤ s.i ∧ s.last = 0 ∧ s.prob = setB (fun _ => 0) 1 4 ∧ s.pcount = setB (fun b => if b = 0 then 4294967295 else 0) 1 1)

theorem oz_match {i : Nat} (hi : 4 ≤ i) : matchLen onesZeros [0] i 16 0 = 16 := by
  have h0 : ∀ j, onesZeros (i + j) = 0 := by intro j; unfold onesZeros; rw [if_neg (by omega)]
  have h1 : onesZeros i = 0 := h0 0
  simp [matchLen, h0, h1]

theorem pickStep_oz {n : Nat} (hn : 40 ≤ n) (s : PickS) (h : ozInv s) : Post (pickStep onesZeros n s) ozInv
    (fun s' => s'.last = 0 ∧ s'.prob = setB (fun _ => 0) 1 4 ∧ s'.pcount = setB (fun b => if b = 0 then 4294967295 else 0) 1 1) := by
  obtain ⟨se, i, count, last, prob, pcount⟩ := s
  rcases h with ⟨rfl, rfl, rfl, rfl, rfl⟩ | ⟨rfl, rfl, rfl, rfl, rfl, rfl⟩ | ⟨rfl, rfl, rfl, rfl⟩ | ⟨rfl, hi, rfl, rfl, rfl⟩
  · unfold pickStep
    cases se
    · rw [if_neg (by simp), if_pos (by simp; omega), if_neg (by decide +kernel), if_neg (by decide +kernel)]
      exact .inl ⟨rfl, rfl, rfl, rfl, rfl⟩
    · rw [if_pos rfl, if_pos (by simp; omega), show findPair onesZeros 1 0 15 0 = some 0 by decide +kernel]
      exact .inr (.inl ⟨rfl, rfl, rfl, rfl, rfl, rfl⟩)
  · unfold pickStep
    rw [if_neg (by simp), if_pos (by simp; omega), if_neg (by decide +kernel), if_pos (by left; decide +kernel)]
    rw [show matchLen onesZeros [1] 1 16 0 = 3 by decide +kernel]
    exact .inr (.inr (.inl ⟨rfl, rfl, rfl, rfl⟩))
  · unfold pickStep
    rw [if_pos rfl, if_pos (by simp; omega), show findPair onesZeros 1 4 15 0 = some 0 by decide +kernel]
    exact .inr (.inr (.inr ⟨rfl, by simp, rfl, rfl, rfl⟩))
  · unfold pickStep
    rw [if_neg (by simp)]
    by_cases hc : i + 16 < n
    · rw [if_pos (by simpa using hc), if_pos (oz_match hi)]
      exact .inr (.inr (.inr ⟨rfl, Nat.le_trans hi (by simp; omega), rfl, rfl, rfl⟩))
    · rw [if_neg (by simpa using hc)]
      exact ⟨rfl, rfl, rfl⟩

theorem pick_oz {n : Nat} (hn : 40 ≤ n) : pick onesZeros n = 1 := by
  have hO := pickO_some onesZeros n
  unfold pickO at hO
  cases hl : loop (pickStep onesZeros n) (2 * n + 3) (pickInit onesZeros) with
  | none => rw [hl] at hO; cases hO
  | some s =>
    rw [hl] at hO
    simp only [Option.map_some, Option.some.injEq] at hO
    rw [← hO]
    obtain ⟨h1, h2, h3⟩ := loop_rule_partial (body := pickStep onesZeros n) ozInv _ (fun s => pickStep_oz hn s) _ _ s
      (.inl ⟨rfl, rfl, rfl, rfl, by funext b; simp [pickInit, onesZeros]⟩) hl
    have : pickMax s.tally.prob s.tally.pcount = 1 := by
      refine pickMax_best (K := 0) (by omega) ?_ fun i hi hne => ?_
      · unfold pickScore
        simp [PickS.tally, h1, h2, h3, setB, b8]
      · unfold pickScore
        have e1 : b8 i ≠ 1 := by
          intro e
          have := congrArg UInt8.toNat e
          rw [b8_toNat, Nat.mod_eq_of_lt hi] at this
          exact hne this
        by_cases e0 : b8 i = 0
        · rw [if_neg (by simp [PickS.tally, h1, h2, h3, setB, e0])]
        · rw [if_neg (by simp [PickS.tally, h1, h2, h3, setB, e0, e1])]
    rw [this]; rfl

theorem oz_others {n : Nat} (hn : 4 ≤ n) : others 0 onesZeros n = 4 ∧ others 1 onesZeros n = n - 4 := by
  obtain ⟨k, rfl⟩ := Nat.exists_eq_add_of_le hn
  unfold others
  rw [show (List.range (4 + k)) = List.range 4 ++ (List.range k).map (4 + ·) by
    rw [List.range_add], List.countP_append, List.countP_append, List.countP_map, List.countP_map]
  have h0 : ∀ j, onesZeros (4 + j) = 0 := by intro j; unfold onesZeros; rw [if_neg (by omega)]
  constructor
  · rw [List.countP_eq_zero.mpr (show ∀ j ∈ List.range k, ¬ ((fun j => onesZeros j != 0) ∘ fun x => 4 + x) j = true by
      intro j _; simp [h0])]
    decide
  · rw [List.countP_eq_length.mpr (show ∀ j ∈ List.range k, ((fun j => onesZeros j != 1) ∘ fun x => 4 + x) j = true by
      intro j _; simp [h0])]
    rw [show (List.range 4).countP (fun j => onesZeros j != 1) = 0 by decide]
    simp

theorem apiCompress_ok {body : Mem → Nat → Option (List Byte)} {inp : Mem} {n : Nat} {b : List Byte} (hn : 0 < n) (hb : body inp n = some b) :
    apiCompress body (some inp) n true (bounds n + 8 + b.length) =
      .ok ((8 + b.length) % 4294967296) (le32 n ++ le32 (8 + b.length) ++ b) := by
  simp only [apiCompress]
  rw [if_neg (by simp; omega)]
  simp only [hb]
  rw [if_pos (by simp; omega)]

/-! ### The theorems -/

/-- C52: the size follows the symbol that is stored in byte 9 of the stream. -/
theorem C52_rle8_single_stored (packed : Bool) (cpu : Cpu) : SizeByStored 9 13 32 (R8Cfg.compress ⟨true, packed⟩ cpu) :=
  fun _ _ _ _ _ he => ⟨_, R8Cfg.size_pick he⟩

/-- The symbol 0 is not counted correctly when the input does not begin with it (src/rle8_extreme_cpu.c:66-67). -/
abbrev counted (v : Byte) (inp : Mem) : Prop := v ≠ 0 ∨ inp 0 = 0

/-- C52, but for the symbol 0 when the input does not begin with it. -/
theorem C52_rle8_single_partial (packed : Bool) (cpu : Cpu) : SizeByOthers 13 46 counted (R8Cfg.compress ⟨true, packed⟩ cpu) := by
  intro inp n outSize ret out v hn he hv
  by_cases hk : 6 * others v inp n + 20 ≤ n
  · obtain ⟨_, _, h3⟩ := R8Cfg.size_pick he
    rw [pick_best hn hv hk] at h3
    omega
  · have := C17_rle8_growth_partial ⟨true, packed⟩ cpu inp n outSize ret out he
    have hg : R8Cfg.grow ⟨true, packed⟩ ≤ 4 := by unfold R8Cfg.grow; split <;> (try split) <;> omega
    have := Nat.mul_le_mul_right (n / 255) hg
    omega

/-- C52, negated for `rle8[_packed]_single_compress`: for every size there is an input of which all but four bytes are 0 that is not
compressed at all. -/
theorem C52_rle8_single_violated (packed : Bool) (cpu : Cpu) (n : Nat) (hn : 40 ≤ n) : ∃ inp outSize ret out,
    R8Cfg.compress ⟨true, packed⟩ cpu (some inp) n true outSize = .ok ret out ∧ others 0 inp n = 4 ∧ n - 4 ≤ out.length := by
  obtain ⟨b, hb⟩ := (R8Cfg.cdc_ok ⟨true, packed⟩).total cpu onesZeros n
  refine ⟨onesZeros, bounds n + 8 + b.length, _, _, apiCompress_ok (by omega) hb, (oz_others (by omega)).1, ?_⟩
  obtain ⟨_, h, _⟩ := R8Cfg.size_pick (packed := packed) (cpu := cpu) (apiCompress_ok (by omega) hb)
  rw [pick_oz hn, (oz_others (by omega)).2] at h
  exact h

/-- All but the last of 300 bytes are 2: 23 bytes, and for the other bytes 299 to 301. -/
example : counted 2 (fun i => if i < 299 then 2 else 3) ∧ others 2 (fun i => if i < 299 then 2 else 3) 300 = 1 ∧
    (R8Cfg.compress ⟨true, true⟩ noSimd (some fun i => if i < 299 then 2 else 3) 300 true 1000).size ≤ 59 := by decide +kernel

/-- C52: the size follows the symbol that is stored in byte 8 of the stream. -/
theorem C52_single_short_stored (c : ShCfg) (hc : c.valid) (hm : c.mode = .single) (cpu : Cpu) : SizeByStored 8 13 30 (c.compress cpu) :=
  fun _ _ _ _ _ he => ⟨_, ShCfg.size_pick hc hm he⟩

/-- C52, but for the symbol 0 when the input does not begin with it. -/
theorem C52_single_short_partial (c : ShCfg) (hc : c.valid) (hm : c.mode = .single) (cpu : Cpu) :
    SizeByOthers 13 56 counted (c.compress cpu) := by
  intro inp n outSize ret out v hn he hv
  by_cases hk : 6 * others v inp n + 20 ≤ n
  · obtain ⟨_, _, h3⟩ := ShCfg.size_pick hc hm he
    rw [pick_best hn hv hk] at h3
    omega
  · have := C19_short_growth_partial c hc cpu inp n outSize ret out he
    have hg : c.growE ≤ 1 := by unfold ShCfg.growE; split <;> omega
    have := Nat.mul_le_mul_right (n / 65534) hg
    omega

/-- C52, negated for `rle8_single_short_compress`. -/
theorem C52_single_short_violated (c : ShCfg) (hc : c.valid) (hm : c.mode = .single) (cpu : Cpu) (n : Nat) (hn : 40 ≤ n) :
    ∃ inp outSize ret out, c.compress cpu (some inp) n true outSize = .ok ret out ∧ others 0 inp n = 4 ∧ n - 4 ≤ out.length := by
  obtain ⟨b, hb⟩ := (c.cdc_ok hc).total cpu onesZeros n
  refine ⟨onesZeros, bounds n + 8 + b.length, _, _, apiCompress_ok (by omega) hb, (oz_others (by omega)).1, ?_⟩
  obtain ⟨_, h, _⟩ := ShCfg.size_pick hc hm (cpu := cpu) (apiCompress_ok (by omega) hb)
  rw [pick_oz hn, (oz_others (by omega)).2] at h
  exact h

example : ShCfg.valid ⟨0, 1, true, .single⟩ ∧
    (ShCfg.compress ⟨0, 1, true, .single⟩ noSimd (some fun i => if i < 299 then 2 else 3) 300 true 1000).size ≤ 69 := by decide +kernel

end Hrk
