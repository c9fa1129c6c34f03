import Verif.OclHost

/-
Lemmas for `PropsOclHost`: which objects the variables of the OpenCL functions hold after each step.
-/

namespace Hrk

theorem heldFrom_append (a b : List OclEv) : ∀ L, heldFrom L (a ++ b) = (heldFrom L a).bind fun L => heldFrom L b := by
  induction a with
  | nil => intro L; rfl
  | cons e es ih =>
    intro L
    cases e <;> simp only [List.cons_append, heldFrom] <;> try exact ih _
    · split
      · exact ih _
      · rfl
    · split
      · exact ih _
      · rfl
    · rfl

/-- The objects of some variables. -/
def ownedList (v : Slot → Option Nat) (ss : List Slot) : List (OclKind × Nat) :=
  ss.filterMap fun s => (v s).map fun x => (s.kind, x)

/-- All went well, and the objects held are those of the variables `ss`. -/
def Own (h : Host) (ss : List Slot) : Prop := ∃ L, heldFrom [] h.log = some L ∧ L.Perm (ownedList h.v ss)

theorem mem_owned {v : Slot → Option Nat} {ss : List Slot} {s : Slot} {x : Nat} (hs : s ∈ ss) (hx : v s = some x) :
    (s.kind, x) ∈ ownedList v ss := by
  simp only [ownedList, List.mem_filterMap]
  exact ⟨s, hs, by rw [hx]; rfl⟩

theorem owned_congr {v w : Slot → Option Nat} {ss : List Slot} (h : ∀ s ∈ ss, v s = w s) : ownedList v ss = ownedList w ss := by
  induction ss with
  | nil => rfl
  | cons s ss ih =>
    have := ih fun t ht => h t (List.mem_cons_of_mem _ ht)
    simp only [ownedList] at this ⊢
    rw [List.filterMap_cons, List.filterMap_cons, h s (List.mem_cons_self ..), this]

theorem owned_none {v : Slot → Option Nat} {ss : List Slot} (h : ∀ s ∈ ss, v s = none) : ownedList v ss = [] := by
  simp only [ownedList, List.filterMap_eq_nil_iff]
  intro s hs
  rw [h s hs]; rfl

theorem owned_set {v : Slot → Option Nat} {s : Slot} {x : Nat} :
    ∀ {ss : List Slot}, ss.Nodup → s ∈ ss → v s = none →
      (ownedList (fun t => if t = s then some x else v t) ss).Perm ((s.kind, x) :: ownedList v ss) := by
  intro ss
  induction ss with
  | nil => intro _ h; cases h
  | cons t ts ih =>
    intro hn hs hv
    rw [List.nodup_cons] at hn
    by_cases ht : t = s
    · subst ht
      have h1 : ownedList (fun u => if u = t then some x else v u) ts = ownedList v ts :=
        owned_congr fun u hu => if_neg (by rintro rfl; exact hn.1 hu)
      simp only [ownedList] at h1 ⊢
      simp only [List.filterMap_cons, if_true, hv, Option.map_some, Option.map_none, h1]
      exact List.Perm.refl _
    · have hs' : s ∈ ts := by
        rcases List.mem_cons.mp hs with h | h
        · exact absurd h.symm ht
        · exact h
      have := ih hn.2 hs' hv
      simp only [ownedList] at this ⊢
      simp only [List.filterMap_cons, if_neg ht]
      cases hvt : v t with
      | none => simpa using this
      | some y =>
        simp only [Option.map_some]
        exact (List.Perm.cons _ this).trans (List.Perm.swap _ _ _)

theorem owned_drop {v : Slot → Option Nat} {s : Slot} {x : Nat} :
    ∀ {ss : List Slot}, ss.Nodup → s ∈ ss → v s = some x →
      (ownedList v ss).Perm ((s.kind, x) :: ownedList (fun t => if t = s then none else v t) ss) := by
  intro ss hn hs hv
  have h1 := owned_set (v := fun t => if t = s then none else v t) (x := x) hn hs (if_pos rfl)
  have h2 : (fun t => if t = s then some x else (fun t => if t = s then none else v t) t) = v := by
    funext t
    by_cases ht : t = s
    · subst ht; simp [hv]
    · simp [ht]
  rw [h2] at h1
  exact h1

theorem held_emit (h : Host) (e : OclEv) : heldFrom [] (h.emit e).log = (heldFrom [] h.log).bind fun L => heldFrom L [e] := by
  show heldFrom [] (h.log ++ [e]) = _
  exact heldFrom_append _ _ _

theorem Own.use {h : Host} {ss : List Slot} {s : Slot} (H : Own h ss) (hs : s ∈ ss) (hv : h.v s ≠ none) :
    Own (h.use s) ss ∧ (h.use s).v = h.v := by
  obtain ⟨L, hL, hp⟩ := H
  obtain ⟨x, hx⟩ := Option.ne_none_iff_exists'.mp hv
  have hm : (s.kind, x) ∈ L := hp.mem_iff.mpr (mem_owned hs hx)
  simp only [Host.use, hx]
  refine ⟨⟨L, ?_, hp⟩, rfl⟩
  rw [held_emit, hL]
  simp only [Option.bind_some, heldFrom, if_pos hm]

theorem Own.create {h : Host} {ss : List Slot} {s : Slot} (e : InitEnv) (H : Own h ss) (hn : ss.Nodup) (hs : s ∈ ss)
    (hv : h.v s = none) : Own (h.create e s) ss := by
  obtain ⟨L, hL, hp⟩ := H
  unfold Host.create
  split
  · refine ⟨(s.kind, e.addr h.log) :: L, ?_, ?_⟩
    · show heldFrom [] (h.emit _).log = _
      rw [held_emit, hL]; rfl
    · show List.Perm _ (ownedList (fun t => if t = s then some (e.addr h.log) else h.v t) ss)
      exact (List.Perm.cons _ hp).trans (owned_set hn hs hv).symm
  · refine ⟨L, hL, ?_⟩
    show List.Perm _ (ownedList (fun t => if t = s then none else h.v t) ss)
    rwa [owned_congr (w := h.v) fun t _ => by
      by_cases ht : t = s
      · subst ht; simp [hv]
      · simp [ht]]

theorem create_v (h : Host) (e : InitEnv) (s t : Slot) :
    (h.create e s).v t = if t = s then (if e.got s then some (e.addr h.log) else none) else h.v t := by
  unfold Host.create
  split <;> rfl

/-- `pPlatforms` is overwritten by a new allocation. -/
theorem Own.createPlatforms {h : Host} {ss : List Slot} (e : InitEnv) (H : Own h ss) (hs : Slot.platforms ∉ ss) :
    Own (h.create e .platforms) (.platforms :: ss) := by
  obtain ⟨L, hL, hp⟩ := H
  have hc : ∀ x, ownedList (fun t => if t = Slot.platforms then x else h.v t) ss = ownedList h.v ss := fun x =>
    owned_congr fun t ht => if_neg (by rintro rfl; exact hs ht)
  unfold Host.create
  split
  · refine ⟨(OclKind.heap, e.addr h.log) :: L, ?_, ?_⟩
    · show heldFrom [] (h.emit _).log = _
      rw [held_emit, hL]; rfl
    · have := hc (some (e.addr h.log))
      show List.Perm _ (ownedList (fun t => if t = Slot.platforms then some (e.addr h.log) else h.v t) (.platforms :: ss))
      simp only [ownedList] at this ⊢
      rw [List.filterMap_cons]
      simp only [if_true, Option.map_some, this]
      exact List.Perm.cons _ hp
  · refine ⟨L, hL, ?_⟩
    have := hc none
    show List.Perm _ (ownedList (fun t => if t = Slot.platforms then none else h.v t) (.platforms :: ss))
    simp only [ownedList] at this ⊢
    rw [List.filterMap_cons]
    simp only [if_true, Option.map_none, this]
    exact hp

theorem Own.drop {h : Host} {ss : List Slot} {s : Slot} (H : Own h ss) (hn : ss.Nodup) (hs : s ∈ ss) : Own (h.drop s) ss := by
  unfold Host.drop
  cases hx : h.v s with
  | none => exact H
  | some x =>
    obtain ⟨L, hL, hp⟩ := H
    have hm : (s.kind, x) ∈ L := hp.mem_iff.mpr (mem_owned hs hx)
    refine ⟨L.erase (s.kind, x), ?_, ?_⟩
    · show heldFrom [] (h.emit _).log = _
      rw [held_emit, hL]
      simp only [Option.bind_some, heldFrom, if_pos hm]
    · have h1 := (hp.trans (owned_drop hn hs hx)).erase (s.kind, x)
      rw [List.erase_cons_head] at h1
      exact h1

theorem drop_v (h : Host) (s t : Slot) : (h.drop s).v t = if t = s then none else h.v t := by
  unfold Host.drop
  cases hx : h.v s with
  | none =>
    by_cases ht : t = s
    · subst ht; simp [hx]
    · simp [ht]
  | some x => rfl

theorem foldl_drop_v : ∀ (os : List Slot) (h : Host) (t : Slot), (os.foldl Host.drop h).v t = if t ∈ os then none else h.v t := by
  intro os
  induction os with
  | nil => intro h t; simp
  | cons s os ih =>
    intro h t
    rw [List.foldl_cons, ih, drop_v]
    by_cases h1 : t ∈ os
    · simp [h1]
    · by_cases h2 : t = s <;> simp [h1, h2]

theorem Own.foldl_drop {ss : List Slot} (hn : ss.Nodup) : ∀ (os : List Slot) {h : Host}, Own h ss → (∀ s ∈ os, s ∈ ss) →
    Own (os.foldl Host.drop h) ss := by
  intro os
  induction os with
  | nil => intro h H _; exact H
  | cons s os ih =>
    intro h H hs
    exact ih (H.drop hn (hs s (List.mem_cons_self ..))) fun t ht => hs t (List.mem_cons_of_mem _ ht)

theorem destroyOrder_nodup : destroyOrder.Nodup := by decide
theorem all_nodup : (Slot.platforms :: destroyOrder).Nodup := by decide

theorem mem_destroyOrder {s : Slot} (h : s ≠ .platforms) : s ∈ destroyOrder := by
  cases s <;> first | decide | exact absurd rfl h

theorem drop_ready (h : Host) (s : Slot) : (h.drop s).ready = h.ready ∧ (h.drop s).sizes = h.sizes := by
  unfold Host.drop
  cases h.v s <;> exact ⟨rfl, rfl⟩

theorem foldl_drop_ready : ∀ (os : List Slot) (h : Host), (os.foldl Host.drop h).ready = h.ready ∧ (os.foldl Host.drop h).sizes = h.sizes := by
  intro os
  induction os with
  | nil => intro h; exact ⟨rfl, rfl⟩
  | cons s os ih =>
    intro h
    rw [List.foldl_cons, (ih _).1, (ih _).2]
    exact drop_ready h s

theorem destroy_v (h : Host) (t : Slot) : h.destroy.v t = if t = .platforms then h.v t else none := by
  unfold Host.destroy
  rw [foldl_drop_v]
  by_cases ht : t = .platforms
  · subst ht
    rw [if_neg (by decide), if_pos rfl]
  · rw [if_pos (mem_destroyOrder ht), if_neg ht]

theorem destroy_ready (h : Host) : h.destroy.ready = false := (foldl_drop_ready _ _).1

theorem Own.destroy {h : Host} {ss : List Slot} (H : Own h ss) (hn : ss.Nodup) (hs : ∀ s ∈ destroyOrder, s ∈ ss) : Own h.destroy ss :=
  Own.foldl_drop hn _ (h := { h with ready := false, sizes := (0, 0, 0) }) H hs

/-! ### Between the calls -/

/-- What holds whenever the library is not running. -/
structure Rest (h : Host) : Prop where
  own : Own h destroyOrder
  on : h.ready = true → ∀ s, s ≠ .platforms → h.v s ≠ none
  off : h.ready = false → ∀ s, s ≠ .platforms → h.v s = none

theorem rest_host0 : Rest host0 :=
  ⟨⟨[], rfl, by decide⟩, fun h => (by cases h), fun _ _ _ => rfl⟩

theorem Rest.destroy {h : Host} (H : Rest h) : Rest h.destroy where
  own := H.own.destroy destroyOrder_nodup fun _ h => h
  on := fun hr => by rw [destroy_ready] at hr; cases hr
  off := fun _ s hs => by rw [destroy_v, if_neg hs]

theorem Rest.emit {h : Host} (H : Rest h) {e : OclEv} (he : ∀ L, heldFrom L [e] = some L) : Rest (h.emit e) where
  own := by
    obtain ⟨L, hL, hp⟩ := H.own
    exact ⟨L, by rw [held_emit, hL]; exact he L, hp⟩
  on := H.on
  off := H.off

/-- Nothing is held when the library is not initialised. -/
theorem Rest.off_held {h : Host} (H : Rest h) (hr : h.ready = false) : heldFrom [] h.log = some [] := by
  obtain ⟨L, hL, hp⟩ := H.own
  rw [owned_none fun s hs => H.off hr s (by rintro rfl; exact absurd hs (by decide))] at hp
  rw [hL, hp.eq_nil]

/-! ### Inside `rle8m_opencl_init` -/

/-- The variables `made` have been assigned, the others not. -/
structure Mid (made : List Slot) (h : Host) : Prop where
  own : Own h (.platforms :: destroyOrder)
  some : ∀ s ∈ made, h.v s ≠ none
  none : ∀ s, s ∉ made → h.v s = none

theorem Mid.uses {made : List Slot} : ∀ (args : List Slot) {h : Host}, Mid made h → (∀ s ∈ args, s ∈ made) →
    Mid made (args.foldl Host.use h) := by
  intro args
  induction args with
  | nil => intro h H _; exact H
  | cons s args ih =>
    intro h H ha
    have hs := ha s (List.mem_cons_self ..)
    have hm : s ∈ Slot.platforms :: destroyOrder := by
      by_cases h1 : s = .platforms
      · rw [h1]; exact List.mem_cons_self ..
      · exact List.mem_cons_of_mem _ (mem_destroyOrder h1)
    have hu := H.own.use hm (H.some s hs)
    refine ih ⟨hu.1, ?_, ?_⟩ fun t ht => ha t (List.mem_cons_of_mem _ ht)
    · rw [hu.2]; exact H.some
    · rw [hu.2]; exact H.none

theorem mem_all (s : Slot) : s ∈ Slot.platforms :: destroyOrder := by cases s <;> decide

theorem Mid.create {made : List Slot} {h : Host} {s : Slot} (e : InitEnv) (H : Mid made h) (hs : s ∉ made) :
    Own (h.create e s) (.platforms :: destroyOrder) ∧ (e.got s = true → Mid (s :: made) (h.create e s)) := by
  have ho := H.own.create e all_nodup (mem_all s) (H.none s hs)
  refine ⟨ho, fun hg => ⟨ho, ?_, ?_⟩⟩
  · intro t ht
    rw [create_v, hg]
    by_cases hts : t = s
    · simp [hts]
    · rw [if_neg hts]
      exact H.some t ((List.mem_cons.mp ht).resolve_left hts)
  · intro t ht
    rw [List.mem_cons, not_or] at ht
    rw [create_v, if_neg ht.1]
    exact H.none t ht.2

/-- What the steps after the allocation of the platform list achieve. -/
def OclEnds (r : Host × Bool) : Prop :=
  Own r.1 (.platforms :: destroyOrder) ∧ (r.2 = true → ∀ s, r.1.v s ≠ none)

theorem ends_cons {f : Host → Host × Bool} {fs : List (Host → Host × Bool)} {h : Host}
    (h1 : Own (f h).1 (.platforms :: destroyOrder)) (h2 : (f h).2 = true → OclEnds (untilFalse fs (f h).1)) : OclEnds (untilFalse (f :: fs) h) := by
  unfold untilFalse
  split
  · next hc => exact h2 hc
  · exact ⟨h1, fun h => by cases h⟩

theorem make_ends {e : InitEnv} {args made : List Slot} {s : Slot} {fs : List (Host → Host × Bool)} {h : Host} (H : Mid made h)
    (ha : ∀ t ∈ args, t ∈ made) (hs : s ∉ made) (hr : ∀ h, Mid (s :: made) h → OclEnds (untilFalse fs h)) :
    OclEnds (untilFalse (Host.make e args s :: fs) h) := by
  have := (H.uses args ha).create e hs
  refine ends_cons this.1 fun h2 => hr _ (this.2 ?_)
  simp only [Host.make, Bool.and_eq_true] at h2
  exact h2.2

/-- The steps from line 84 on. -/
def lateSteps (e : InitEnv) : List (Host → Host × Bool) := (initSteps e).drop 3

theorem late_ends {e : InitEnv} (hd : e.ids = true → e.ret .device = true → e.got .device = true) {h : Host}
    (H : Mid [.platforms, .offsets] h) : OclEnds (untilFalse (lateSteps e) h) := by
  have hu := H.uses [.platforms] (by decide)
  have hc := hu.create e (s := .device) (by decide)
  refine ends_cons hc.1 fun h2 => ?_
  rw [Bool.and_eq_true] at h2
  refine make_ends (hc.2 (hd h2.1 h2.2)) (by decide) (by decide) fun h H => ?_
  refine make_ends H (by decide) (by decide) fun h H => ?_
  refine make_ends H (by decide) (by decide) fun h H => ?_
  refine make_ends H (by decide) (by decide) fun h H => ?_
  refine make_ends H (by decide) (by decide) fun h H => ?_
  refine make_ends H (by decide) (by decide) fun h H => ?_
  refine make_ends H (by decide) (by decide) fun h H => ?_
  refine make_ends H (by decide) (by decide) fun h H => ?_
  have hb := H.uses [.program, .device] (by decide)
  refine ends_cons hb.own fun _ => ?_
  refine make_ends hb (by decide) (by decide) fun h H => ?_
  refine make_ends H (by decide) (by decide) fun h H => ?_
  exact ⟨H.own, fun _ s => H.some s (by cases s <;> decide)⟩

/-- `rle8m_opencl_init` gives up before it has asked for memory for the list of platforms. -/
def Early (e : InitEnv) : Prop := e.got .offsets = false ∨ e.count = false

theorem use_ready (h : Host) (s : Slot) : (h.use s).ready = h.ready ∧ (h.use s).sizes = h.sizes ∧ (h.use s).v = h.v := by
  unfold Host.use
  cases h.v s <;> exact ⟨rfl, rfl, rfl⟩

/-- The first steps: either `Early`, and only `pSubSectionOffsets` was touched, or the list of platforms has been asked for. -/
theorem steps_spec {e : InitEnv} (hd : e.ids = true → e.ret .device = true → e.got .device = true) {h : Host} (H : Rest h)
    (hr : h.ready = false) :
    (Early e ∧ Own (untilFalse (initSteps e) h).1 destroyOrder ∧ (untilFalse (initSteps e) h).2 = false ∧
      (untilFalse (initSteps e) h).1.v .platforms = h.v .platforms) ∨ (¬ Early e ∧ OclEnds (untilFalse (initSteps e) h)) := by
  have hoff : h.v .offsets = none := H.off hr _ (by decide)
  have h1 : Own (h.create e .offsets) destroyOrder := H.own.create e destroyOrder_nodup (by decide) hoff
  have hv1 : (h.create e .offsets).v .platforms = h.v .platforms := by rw [create_v, if_neg (by decide)]
  unfold initSteps
  rw [untilFalse]
  dsimp only
  split
  · next hg =>
    rw [untilFalse]
    dsimp only
    split
    · next hc =>
      refine Or.inr ⟨by rintro (h | h) <;> simp_all, ?_⟩
      have h2 : Own ((h.create e .offsets).create e .platforms) (.platforms :: destroyOrder) := h1.createPlatforms e (by decide)
      rw [untilFalse]
      dsimp only
      split
      · next hp =>
        refine late_ends hd ⟨h2, ?_, ?_⟩
        · intro s hs
          rcases List.mem_cons.mp hs with hs | hs
          · subst hs; rw [create_v, if_pos rfl, if_pos hp]; exact fun h => by cases h
          · rw [List.mem_singleton] at hs
            subst hs; rw [create_v, if_neg (by decide), create_v, if_pos rfl, if_pos hg]; exact fun h => by cases h
        · intro s hs
          rw [List.mem_cons, List.mem_singleton, not_or] at hs
          rw [create_v, if_neg hs.1, create_v, if_neg hs.2]
          exact H.off hr s hs.1
      · exact ⟨h2, fun h => by cases h⟩
    · next hc => exact Or.inl ⟨Or.inr (by simpa using hc), h1, rfl, hv1⟩
  · next hg => exact Or.inl ⟨Or.inl (by simpa using hg), h1, rfl, hv1⟩

theorem freePlatforms_v (h : Host) : h.freePlatforms.v = h.v ∧ h.freePlatforms.ready = h.ready ∧ h.freePlatforms.sizes = h.sizes := by
  unfold Host.freePlatforms
  cases h.v .platforms <;> exact ⟨rfl, rfl, rfl⟩

theorem Own.freePlatforms {h : Host} (H : Own h (.platforms :: destroyOrder)) : Own h.freePlatforms destroyOrder := by
  obtain ⟨L, hL, hp⟩ := H
  unfold Host.freePlatforms
  simp only [ownedList, List.filterMap_cons] at hp
  cases hx : h.v .platforms with
  | none =>
    simp only [hx, Option.map_none] at hp
    exact ⟨L, hL, hp⟩
  | some x =>
    simp only [hx, Option.map_some] at hp
    have hm : (OclKind.heap, x) ∈ L := hp.mem_iff.mpr (List.mem_cons_self ..)
    refine ⟨L.erase (OclKind.heap, x), ?_, ?_⟩
    · show heldFrom [] (h.emit _).log = _
      rw [held_emit, hL]
      simp only [Option.bind_some, heldFrom, if_pos hm]
    · have h1 := hp.erase (OclKind.heap, x)
      rw [show Slot.platforms.kind = OclKind.heap from rfl, List.erase_cons_head] at h1
      exact h1

/-- A call of `rle8m_opencl_init`: either it frees a list of platforms that was already freed, or everything is in order. -/
theorem init_spec {e : InitEnv} (hd : e.ids = true → e.ret .device = true → e.got .device = true) {h : Host} (H : Rest h)
    (i o s : Nat) :
    (h.enough i o s = false ∧ Early e ∧ h.v .platforms ≠ none ∧ heldFrom [] (h.init e i o s).1.log = none) ∨
    ((h.enough i o s = true ∨ ¬ Early e ∨ h.v .platforms = none) ∧ Rest (h.init e i o s).1 ∧
      ((h.init e i o s).2 = true → (h.init e i o s).1.ready = true ∧ s ≤ (h.init e i o s).1.sizes.2.2) ∧
      ((h.init e i o s).2 = false → (h.init e i o s).1.ready = false)) := by
  unfold Host.init
  split
  · next he =>
    refine Or.inr ⟨Or.inl he, H, fun _ => ?_, fun h => by cases h⟩
    simp only [Host.enough, Bool.and_eq_true, decide_eq_true_eq] at he
    exact ⟨he.1, he.2.2⟩
  · next he =>
    have he : h.enough i o s = false := by simpa using he
    have hg : Rest (if h.ready then h.destroy else h) ∧ (if h.ready then h.destroy else h).ready = false ∧
        (if h.ready then h.destroy else h).v .platforms = h.v .platforms := by
      split
      · exact ⟨H.destroy, destroy_ready h, by rw [destroy_v, if_pos rfl]⟩
      · next hr => exact ⟨H, by simpa using hr, rfl⟩
    revert hg
    generalize (if h.ready then h.destroy else h) = g
    rintro ⟨Hg, hgr, hgp⟩
    dsimp only
    rcases steps_spec hd Hg hgr with ⟨hE, hO, hf, hp⟩ | ⟨hE, hO, hT⟩
    · rw [hf]
      simp only [Bool.false_eq_true, if_false]
      have hO' := hO.destroy destroyOrder_nodup fun _ h => h
      have hnil : heldFrom [] (untilFalse (initSteps e) g).1.destroy.log = some [] := by
        obtain ⟨L, hL, hpm⟩ := hO'
        rw [owned_none fun s hs => by rw [destroy_v, if_neg (by rintro rfl; exact absurd hs (by decide))]] at hpm
        rw [hL, hpm.eq_nil]
      have hpp : (untilFalse (initSteps e) g).1.destroy.v .platforms = h.v .platforms := by
        rw [destroy_v, if_pos rfl, hp, hgp]
      cases hx : h.v .platforms with
      | some x =>
        refine Or.inl ⟨he, hE, (by intro h; cases h), ?_⟩
        unfold Host.freePlatforms
        rw [hpp, hx]
        show heldFrom [] (Host.emit _ _).log = _
        rw [held_emit, hnil]
        rfl
      | none =>
        refine Or.inr ⟨Or.inr (Or.inr rfl), ?_, fun h => (by cases h), fun _ => ?_⟩
        · have : (untilFalse (initSteps e) g).1.destroy.freePlatforms = (untilFalse (initSteps e) g).1.destroy := by
            unfold Host.freePlatforms
            rw [hpp, hx]
          rw [this]
          exact ⟨hO', fun hr => (by rw [destroy_ready] at hr; cases hr), fun _ s hs => by rw [destroy_v, if_neg hs]⟩
        · rw [(freePlatforms_v _).2.1, destroy_ready]
    · refine Or.inr ⟨Or.inr (Or.inl hE), ?_⟩
      cases ht : (untilFalse (initSteps e) g).2 with
      | false =>
        simp only [Bool.false_eq_true, if_false]
        refine ⟨⟨(hO.destroy all_nodup fun s _ => mem_all s).freePlatforms, fun hr => ?_, fun _ s hs => ?_⟩, fun h => (by cases h), fun _ => ?_⟩
        · rw [(freePlatforms_v _).2.1, destroy_ready] at hr; cases hr
        · rw [(freePlatforms_v _).1, destroy_v, if_neg hs]
        · rw [(freePlatforms_v _).2.1, destroy_ready]
      | true =>
        simp only [if_true]
        have hO2 : Own { (untilFalse (initSteps e) g).1 with ready := true, sizes := (i, o, s) } (.platforms :: destroyOrder) := hO
        refine ⟨⟨hO2.freePlatforms, fun _ t _ => ?_, fun hr => ?_⟩, fun _ => ⟨?_, ?_⟩, fun h => by cases h⟩
        · rw [(freePlatforms_v _).1]; exact hT ht t
        · rw [(freePlatforms_v _).2.1] at hr; cases hr
        · rw [(freePlatforms_v _).2.1]
        · rw [(freePlatforms_v _).2.2]; exact Nat.le_refl _

/-! ### The calls of `rle8m_opencl_decompress` -/

theorem Rest.uses : ∀ (args : List Slot) {h : Host}, Rest h → h.ready = true → (∀ s ∈ args, s ≠ .platforms) →
    Rest (args.foldl Host.use h) ∧ (args.foldl Host.use h).ready = true := by
  intro args
  induction args with
  | nil => intro h H hr _; exact ⟨H, hr⟩
  | cons s args ih =>
    intro h H hr ha
    have hs := ha s (List.mem_cons_self ..)
    have hu := H.own.use (mem_destroyOrder hs) (H.on hr s hs)
    have hq := use_ready h s
    refine ih ⟨hu.1, ?_, ?_⟩ (by rw [hq.1]; exact hr) fun t ht => ha t (List.mem_cons_of_mem _ ht)
    · rw [hu.2]; intro _; exact H.on hr
    · rw [hq.1, hr]; intro h; cases h

/-- A step that keeps everything in order. -/
def Keeps (f : Host → Host × Bool) : Prop := ∀ h, Rest h → h.ready = true → Rest (f h).1 ∧ (f h).1.ready = true

theorem untilFalse_keeps : ∀ (fs : List (Host → Host × Bool)), (∀ f ∈ fs, Keeps f) → Keeps (untilFalse fs) := by
  intro fs
  induction fs with
  | nil => intro _ h H hr; exact ⟨H, hr⟩
  | cons f fs ih =>
    intro hf h H hr
    have h1 := hf f (List.mem_cons_self ..) h H hr
    unfold untilFalse
    split
    · exact ih (fun g hg => hf g (List.mem_cons_of_mem _ hg)) _ h1.1 h1.2
    · exact h1

theorem call_keeps {args : List Slot} (ha : ∀ s ∈ args, s ≠ .platforms) (snd ok : Bool) : Keeps (Host.call args snd ok) := by
  intro h H hr
  have hu := Rest.uses args H hr ha
  unfold Host.call
  dsimp only
  split
  · exact ⟨hu.1.emit fun _ => rfl, hu.2⟩
  · exact hu

theorem await_keeps {args : List Slot} (ha : ∀ s ∈ args, s ≠ .platforms) (ok : Bool) : Keeps (Host.await args ok) := by
  intro h H hr
  have hu := Rest.uses args H hr ha
  exact ⟨hu.1.emit fun _ => rfl, hu.2⟩

theorem runCalls_keeps (ok : Nat → Bool) (one : Bool) : ∀ f ∈ runCalls ok one, Keeps f := by
  intro f hf
  cases one
  · simp only [runCalls, Bool.false_eq_true, if_false, List.cons_append, List.nil_append, List.mem_cons, List.not_mem_nil, or_false] at hf
    rcases hf with h | h | h | h | h | h | h | h | h | h | h | h | h <;> subst h <;>
      first | exact call_keeps (by decide) _ _ | exact await_keeps (by decide) _
  · simp only [runCalls, if_true, List.cons_append, List.nil_append, List.mem_cons, List.not_mem_nil, or_false] at hf
    rcases hf with h | h | h | h | h | h | h | h | h | h | h | h <;> subst h <;>
      first | exact call_keeps (by decide) _ _ | exact await_keeps (by decide) _

/-! ### Histories -/

/-- Something goes wrong in a history exactly if some step of it does. -/
theorem fold_bad {σ α : Type} {f : σ → α → σ} {good : α → Prop} {inv bad : σ → Prop} {T : σ → α → Prop}
    (h1 : ∀ h a, good a → inv h → T h a → bad (f h a)) (h2 : ∀ h a, good a → inv h → ¬ T h a → inv (f h a))
    (h3 : ∀ h, inv h → ¬ bad h) (h4 : ∀ h a, bad h → bad (f h a)) :
    ∀ (ops : List α) (h : σ), (∀ a ∈ ops, good a) → inv h →
      ((bad (ops.foldl f h) ↔ ∃ pre a post, ops = pre ++ a :: post ∧ T (pre.foldl f h) a) ∧
        (¬ bad (ops.foldl f h) → inv (ops.foldl f h))) := by
  intro ops
  induction ops with
  | nil =>
    intro h _ hi
    refine ⟨⟨fun hb => absurd hb (h3 h hi), ?_⟩, fun _ => hi⟩
    rintro ⟨pre, a, post, he, _⟩
    cases pre <;> cases he
  | cons a ops ih =>
    intro h hg hi
    have hga := hg a (List.mem_cons_self ..)
    by_cases ht : T h a
    · have hb : bad (ops.foldl f (f h a)) := by
        have : bad (f h a) := h1 h a hga hi ht
        clear ih hi hg ht hga
        generalize f h a = g at this
        induction ops generalizing g with
        | nil => exact this
        | cons b ops ih => exact ih _ (h4 _ _ this)
      exact ⟨⟨fun _ => ⟨[], a, ops, rfl, ht⟩, fun _ => hb⟩, fun hn => absurd hb hn⟩
    · have := ih (f h a) (fun b hb => hg b (List.mem_cons_of_mem _ hb)) (h2 h a hga hi ht)
      refine ⟨⟨fun hb => ?_, ?_⟩, this.2⟩
      · obtain ⟨pre, b, post, he, htb⟩ := this.1.mp hb
        exact ⟨a :: pre, b, post, by rw [he]; rfl, htb⟩
      · rintro ⟨pre, b, post, he, htb⟩
        cases pre with
        | nil =>
          rw [List.nil_append, List.cons.injEq] at he
          rw [he.1] at ht
          exact absurd htb ht
        | cons c pre =>
          rw [List.cons_append, List.cons.injEq] at he
          refine this.1.mpr ⟨pre, b, post, he.2, ?_⟩
          rw [he.1]; exact htb

/-- The events so far contain a mistake. -/
def Unsound (h : Host) : Prop := heldFrom [] h.log = none

theorem Unsound.emit {h : Host} (H : Unsound h) (e : OclEv) : Unsound (h.emit e) := by
  unfold Unsound
  rw [held_emit, H]; rfl

theorem Unsound.use {h : Host} (H : Unsound h) (s : Slot) : Unsound (h.use s) := by
  unfold Host.use
  split <;> exact H.emit _

theorem Unsound.uses : ∀ (args : List Slot) {h : Host}, Unsound h → Unsound (args.foldl Host.use h) := by
  intro args
  induction args with
  | nil => intro h H; exact H
  | cons s args ih => intro h H; exact ih (H.use s)

theorem Unsound.create {h : Host} (H : Unsound h) (e : InitEnv) (s : Slot) : Unsound (h.create e s) := by
  unfold Host.create
  split
  · exact H.emit (.acquire s.kind (e.addr h.log))
  · exact H

theorem Unsound.drop {h : Host} (H : Unsound h) (s : Slot) : Unsound (h.drop s) := by
  unfold Host.drop
  split
  · exact H.emit (.release s.kind _)
  · exact H

theorem Unsound.destroy {h : Host} (H : Unsound h) : Unsound h.destroy := by
  have : ∀ (os : List Slot) (h : Host), Unsound h → Unsound (os.foldl Host.drop h) := by
    intro os
    induction os with
    | nil => intro h H; exact H
    | cons s os ih => intro h H; exact ih _ (H.drop s)
  exact this _ _ (show Unsound { h with ready := false, sizes := (0, 0, 0) } from H)

theorem Unsound.freePlatforms {h : Host} (H : Unsound h) : Unsound h.freePlatforms := by
  unfold Host.freePlatforms
  split
  · exact H.emit _
  · exact H

theorem untilFalse_preserves {P : Host → Prop} : ∀ (fs : List (Host → Host × Bool)), (∀ f ∈ fs, ∀ h, P h → P (f h).1) →
    ∀ h, P h → P (untilFalse fs h).1 := by
  intro fs
  induction fs with
  | nil => intro _ h H; exact H
  | cons f fs ih =>
    intro hf h H
    have h1 := hf f (List.mem_cons_self ..) h H
    unfold untilFalse
    split
    · exact ih (fun g hg => hf g (List.mem_cons_of_mem _ hg)) _ h1
    · exact h1

/-- What all the steps of `rle8m_opencl_init` preserve if the assignments and the calls do. -/
theorem init_preserves {P : Host → Prop} (hu : ∀ h s, P h → P (h.use s)) (hc : ∀ h e s, P h → P (h.create e s))
    (hd : ∀ h, P h → P h.destroy) (hf : ∀ h, P h → P h.freePlatforms)
    (hr : ∀ h : Host, P h → ∀ r z, P { h with ready := r, sizes := z }) (e : InitEnv) (i o s : Nat) (h : Host) (H : P h) :
    P (h.init e i o s).1 := by
  have hus : ∀ (args : List Slot) h, P h → P (args.foldl Host.use h) := by
    intro args
    induction args with
    | nil => intro h H; exact H
    | cons s args ih => intro h H; exact ih _ (hu _ _ H)
  have hm : ∀ args s h, P h → P (Host.make e args s h).1 := fun args s h H => hc _ _ _ (hus _ _ H)
  unfold Host.init
  split
  · exact H
  · have hg : P (if h.ready then h.destroy else h) := by
      split
      · exact hd _ H
      · exact H
    revert hg
    generalize (if h.ready then h.destroy else h) = g
    intro hg
    dsimp only
    have hs : P (untilFalse (initSteps e) g).1 := by
      refine untilFalse_preserves _ ?_ g hg
      intro f hf h H
      simp only [initSteps, List.mem_cons, List.not_mem_nil, or_false] at hf
      rcases hf with hf | hf | hf | hf | hf | hf | hf | hf | hf | hf | hf | hf | hf | hf | hf <;> subst hf
      · exact hc _ _ _ H
      · exact H
      · exact hc _ _ _ H
      · exact hc _ _ _ (hu _ _ H)
      · exact hm _ _ _ H
      · exact hm _ _ _ H
      · exact hm _ _ _ H
      · exact hm _ _ _ H
      · exact hm _ _ _ H
      · exact hm _ _ _ H
      · exact hm _ _ _ H
      · exact hm _ _ _ H
      · exact hu _ _ (hu _ _ H)
      · exact hm _ _ _ H
      · exact hm _ _ _ H
    refine hf _ ?_
    split
    · exact hr _ hs _ _
    · exact hd _ hs

theorem Unsound.init {h : Host} (H : Unsound h) (e : InitEnv) (i o s : Nat) : Unsound (h.init e i o s).1 :=
  init_preserves (P := Unsound) (fun _ s H => H.use s) (fun _ e s H => H.create e s) (fun _ H => H.destroy) (fun _ H => H.freePlatforms)
    (fun _ H _ _ => H) e i o s h H

theorem Unsound.call {h : Host} (H : Unsound h) (args : List Slot) (snd ok : Bool) : Unsound (Host.call args snd ok h).1 := by
  unfold Host.call
  dsimp only
  split
  · exact (H.uses args).emit _
  · exact H.uses args

theorem Unsound.calls {h : Host} (H : Unsound h) (ok : Nat → Bool) (one : Bool) : Unsound (untilFalse (runCalls ok one) h).1 := by
  refine untilFalse_preserves _ ?_ h H
  intro f hf h H
  cases one
  · simp only [runCalls, Bool.false_eq_true, if_false, List.cons_append, List.nil_append, List.mem_cons, List.not_mem_nil, or_false] at hf
    rcases hf with h | h | h | h | h | h | h | h | h | h | h | h | h <;> subst h <;>
      first | exact H.call _ _ _ | exact (H.uses _).emit _
  · simp only [runCalls, if_true, List.cons_append, List.nil_append, List.mem_cons, List.not_mem_nil, or_false] at hf
    rcases hf with h | h | h | h | h | h | h | h | h | h | h | h <;> subst h <;>
      first | exact H.call _ _ _ | exact (H.uses _).emit _

theorem Unsound.decompress {h : Host} (H : Unsound h) (e : InitEnv) (ok : Nat → Bool) (one : Bool) (i o k : Nat) :
    Unsound (h.decompress e ok one i o k).1 := by
  have h1 : Unsound (h.fillOffsets k) := by
    unfold Host.fillOffsets
    split
    · exact H.emit _
    · exact H.use _
  unfold Host.decompress
  dsimp only
  split
  · exact (h1.init e i o k).calls ok one
  · exact h1.init e i o k

theorem Unsound.run {h : Host} (H : Unsound h) (op : OclOp) : Unsound (op.run h) := by
  cases op with
  | init e i o s => exact (H.init e i o s).emit _
  | destroy => exact H.destroy.emit _
  | decompress e ok one i o k => exact (H.decompress e ok one i o k).emit _

theorem Rest.sound {h : Host} (H : Rest h) : ¬ Unsound h := by
  obtain ⟨L, hL, _⟩ := H.own
  intro hu
  rw [Unsound, hL] at hu
  cases hu

end Hrk
