import Verif.Lemmas.OpenCLItems

/-!
Simulation of the machine with single accesses by the one with work items in one step: a work item is one step at the time of
its first write, with the second write already made.
-/

namespace Hycu
namespace Items

open OpenCL Function

/-- The places of `nmbs_ramified` with the writes that are about to be made. -/
def fill (pred : Nat) (pc : Nat → Pc) (v : List Nat) : List Nat :=
  v.mapIdx fun y a => match pc y with
    | .put2 f => (Curve.kernelOut pred f).2
    | _ => a

theorem length_fill (pred : Nat) (pc : Nat → Pc) (v : List Nat) : (fill pred pc v).length = v.length := by simp [fill]

/-- The state for the other machine. -/
def view (s : State) : OpenCL.State :=
  match s.base.queue with
  | .kernel k items :: q =>
    { s.base with
      queue := .kernel k (items.filter fun x => (s.pc x).before) :: q
      bufs := update s.base.bufs k.ramified ((s.base.bufs k.ramified).map (fill k.pred s.pc)) }
  | _ => s.base

/-- A work item has the value that it would have in one step. -/
def OnWay (k : Kernel) (bufs : Bufs) (x : Nat) (pc : Pc) : Prop :=
  ∃ ert inc coeffs F, Inputs k bufs ert inc coeffs ∧ value k bufs x = .ok F ∧
    rest ert inc (coeffs.take k.polySize) k.pred x pc = .ok F

/-- What holds while a kernel runs. -/
structure Running (k : Kernel) (items : List Nat) (s : State) : Prop where
  sep : k.Sep
  nodup : items.Nodup
  others : ∀ y ∉ items, s.pc y = .start
  log : ∀ a ∈ s.log, Own k a
  way : ∀ x, (s.pc x).before = true → s.pc x ≠ .start → OnWay k s.base.bufs x (s.pc x)
  room : ∀ x f, s.pc x = .put2 f → ∃ v, s.base.bufs k.ramified = some v ∧ x < v.length

/-- What holds at any time. -/
def Good (s : State) : Prop :=
  match s.base.queue with
  | .kernel k items :: _ => Running k items s
  | _ => s.pc = (fun _ => .start) ∧ s.log = []

theorem view_kernel {s : State} {k : Kernel} {items : List Nat} {q : List Cmd} (h : s.base.queue = .kernel k items :: q) :
    view s = { s.base with
      queue := .kernel k (items.filter fun x => (s.pc x).before) :: q
      bufs := update s.base.bufs k.ramified ((s.base.bufs k.ramified).map (fill k.pred s.pc)) } := by
  unfold view; rw [h]

theorem good_kernel {s : State} {k : Kernel} {items : List Nat} {q : List Cmd} (h : s.base.queue = .kernel k items :: q) :
    Good s ↔ Running k items s := by
  unfold Good; rw [h]

theorem view_other {s : State} (h : ∀ k items q, s.base.queue ≠ .kernel k items :: q) : view s = s.base := by
  unfold view
  split
  · rename_i k items q he
    exact absurd he (h k items q)
  · rfl

theorem good_other {s : State} (h : ∀ k items q, s.base.queue ≠ .kernel k items :: q) :
    Good s ↔ s.pc = (fun _ => .start) ∧ s.log = [] := by
  unfold Good
  split
  · rename_i k items q he
    exact absurd he (h k items q)
  · rfl

theorem fill_start (pred : Nat) {pc : Nat → Pc} (h : ∀ x f, pc x ≠ .put2 f) (v : List Nat) : fill pred pc v = v := by
  unfold fill
  apply List.ext_getElem?
  intro i
  rw [List.getElem?_mapIdx]
  cases hv : v[i]? with
  | none => rfl
  | some a =>
    simp only [Option.map_some, Option.some.injEq]
    split
    · rename_i f hf
      exact absurd hf (h i f)
    · rfl

theorem update_map_id {bufs : Bufs} {b : Buf} {g : List Nat → List Nat} (h : ∀ v, g v = v) :
    update bufs b ((bufs b).map g) = bufs := by
  have : (bufs b).map g = bufs b := by
    cases bufs b with
    | none => rfl
    | some v => simp [h v]
  rw [this, update_eq_self]

/-- The view and the condition when no work item has made a step. -/
theorem view_fresh {s : State} (h : s.pc = fun _ => .start) : view s = s.base := by
  cases hq : s.base.queue with
  | nil => exact view_other (by simp [hq])
  | cons c q =>
    cases c with
    | write b a n => exact view_other (by simp [hq])
    | kernel k items =>
      rw [view_kernel hq]
      have h1 : (items.filter fun x => (s.pc x).before) = items := by
        rw [List.filter_eq_self]
        intro x _
        rw [h]; rfl
      rw [h1, update_map_id (fill_start _ (by rw [h]; simp)), ← hq]

theorem good_fresh {s : State} (h : s.pc = fun _ => .start) (hl : s.log = []) 
    (hf : ∀ k items, Cmd.kernel k items ∈ s.base.queue → k.Sep ∧ items.Nodup) : Good s := by
  cases hq : s.base.queue with
  | nil => exact (good_other (by simp [hq])).2 ⟨h, hl⟩
  | cons c q =>
    cases c with
    | write b a n => exact (good_other (by simp [hq])).2 ⟨h, hl⟩
    | kernel k items =>
      have hc := hf k items (by rw [hq]; exact List.mem_cons_self)
      refine (good_kernel hq).2 ⟨hc.1, hc.2, ?_, ?_, ?_, ?_⟩
      · intro y _; rw [h]
      · rw [hl]; simp
      · intro x _ hx; rw [h] at hx; exact absurd rfl hx
      · intro x f hx; rw [h] at hx; cases hx

/-- The steps that are left in the kernel that is running. -/
def ranks (s : State) : Nat :=
  match s.base.queue with
  | .kernel k items :: _ => (items.map fun x => rank k.polySize (s.pc x)).sum
  | _ => 0

/-- The number of steps that are left decreases. -/
def Less (s' s : State) : Prop := work (view s') < work (view s) ∨ work (view s') = work (view s) ∧ ranks s' < ranks s

theorem sum_update {items : List Nat} (hn : items.Nodup) {x : Nat} (hx : x ∈ items) (f : Pc → Nat) (pc : Nat → Pc) {c : Pc}
    (hc : f c < f (pc x)) : (items.map fun y => f (update pc x c y)).sum < (items.map fun y => f (pc y)).sum := by
  induction items with
  | nil => cases hx
  | cons y ys ih =>
    obtain ⟨h1, h2⟩ := List.nodup_cons.1 hn
    simp only [List.map_cons, List.sum_cons]
    by_cases he : x = y
    · subst he
      rw [update_self]
      have : (ys.map fun y => f (update pc x c y)) = ys.map fun y => f (pc y) := by
        apply List.map_congr_left
        intro z hz
        rw [update_of_ne]
        rintro rfl
        exact h1 hz
      rw [this]; omega
    · rw [update_of_ne (Ne.symm he)]
      have := ih h2 ((List.mem_cons.1 hx).resolve_left he)
      omega

theorem ranks_kernel {s : State} {k : Kernel} {items : List Nat} {q : List Cmd} (h : s.base.queue = .kernel k items :: q) :
    ranks s = (items.map fun x => rank k.polySize (s.pc x)).sum := by
  unfold ranks; rw [h]

theorem OnWay.congr {k : Kernel} {bufs bufs' : Bufs} {x : Nat} {pc : Pc} (h : OnWay k bufs x pc)
    (h1 : ∀ v, bufs k.coeffs = some v → bufs' k.coeffs = some v) (h2 : ∀ v, bufs k.ert = some v → bufs' k.ert = some v)
    (h3 : ∀ v, bufs k.inc = some v → bufs' k.inc = some v) : OnWay k bufs' x pc := by
  obtain ⟨e, i, c, F, ⟨a1, a2, a3, a4⟩, hv, hr⟩ := h
  refine ⟨e, i, c, F, ⟨h1 _ a1, h2 _ a2, h3 _ a3, a4⟩, ?_, hr⟩
  rw [← hv]
  apply value_congr
  · rw [h1 _ a1, a1]
  · rw [h2 _ a2, a2]
  · rw [h3 _ a3, a3]

theorem value_view {k : Kernel} (hk : k.Sep) (bufs : Bufs) (o : Option (List Nat)) (x : Nat) :
    value k (update bufs k.ramified o) x = value k bufs x :=
  value_congr (update_of_ne hk.c2 ..) (update_of_ne hk.e2 ..) (update_of_ne hk.i2 ..) x

theorem filter_same {items : List Nat} {pc : Nat → Pc} {x : Nat} {c : Pc} (h : c.before = (pc x).before) :
    (items.filter fun y => (update pc x c y).before) = items.filter fun y => (pc y).before := by
  apply List.filter_congr
  intro y _
  by_cases hy : y = x
  · subst hy; rw [update_self, h]
  · rw [update_of_ne hy]

theorem fill_same (pred : Nat) {pc : Nat → Pc} {x : Nat} {c : Pc} (h1 : ∀ f, c ≠ .put2 f) (h2 : ∀ f, pc x ≠ .put2 f) :
    fill pred (update pc x c) = fill pred pc := by
  funext v
  unfold fill
  congr 1
  funext y a
  by_cases hy : y = x
  · subst hy
    rw [update_self]
    split
    · rename_i f; exact absurd rfl (h1 f)
    · rfl
  · rw [update_of_ne hy]

theorem before_put2 {c : Pc} (h : c.before = true) (f : Nat) : c ≠ .put2 f := by
  rintro rfl; cases h

theorem busy_or {c : Pc} (h : c.before = true) : c.busy = true ∨ ∃ f, c = .put f := by
  cases c <;> first | exact .inl rfl | exact .inr ⟨_, rfl⟩ | cases h

theorem fill_put (pred : Nat) {pc : Nat → Pc} {x f : Nat} (v : List Nat) :
    fill pred (update pc x (.put2 f)) v = (fill pred pc v).set x (Curve.kernelOut pred f).2 := by
  apply List.ext_getElem?
  intro i
  rw [List.getElem?_set, length_fill]
  unfold fill
  rw [List.getElem?_mapIdx, List.getElem?_mapIdx]
  by_cases hi : x = i
  · subst hi
    rw [if_pos rfl]
    by_cases hl : x < v.length
    · rw [if_pos hl, List.getElem?_eq_getElem hl]
      simp
    · rw [if_neg hl, List.getElem?_eq_none (by omega)]
      rfl
  · rw [if_neg hi, update_of_ne (Ne.symm hi)]

theorem fill_done (pred : Nat) {pc : Nat → Pc} {x f : Nat} (h : pc x = .put2 f) (v : List Nat) :
    fill pred (update pc x .done) (v.set x (Curve.kernelOut pred f).2) = fill pred pc v := by
  apply List.ext_getElem?
  intro i
  unfold fill
  rw [List.getElem?_mapIdx, List.getElem?_mapIdx, List.getElem?_set]
  by_cases hi : x = i
  · subst hi
    rw [if_pos rfl, update_self, h]
    by_cases hl : x < v.length
    · rw [if_pos hl, List.getElem?_eq_getElem hl]
      simp
    · rw [if_neg hl, List.getElem?_eq_none (by omega)]
      rfl
  · rw [if_neg hi, update_of_ne (Ne.symm hi)]

theorem filter_erase {items : List Nat} (hn : items.Nodup) {pc : Nat → Pc} {x i f : Nat}
    (hi : (items.filter fun y => (pc y).before)[i]? = some x) :
    (items.filter fun y => (update pc x (.put2 f) y).before) = (items.filter fun y => (pc y).before).eraseIdx i := by
  have hn' : (items.filter fun y => (pc y).before).Nodup := hn.filter _
  obtain ⟨hlt, hx⟩ := List.getElem?_eq_some_iff.1 hi
  have h1 : (items.filter fun y => (pc y).before).eraseIdx i = (items.filter fun y => (pc y).before).erase x := by
    rw [← hx, hn'.erase_getElem]
  rw [h1, hn'.erase_eq_filter, List.filter_filter]
  apply List.filter_congr
  intro y _
  by_cases hy : y = x
  · subst hy; simp [Pc.before]
  · rw [update_of_ne hy]; simp [hy]

/-- A step of a work item. -/
theorem item_sim {s : State} (hg : Good s) {k : Kernel} {items : List Nat} {q : List Cmd}
    (hq : s.base.queue = .kernel k items :: q) {x : Nat} (hx : x ∈ items) (hd : s.pc x ≠ .done)
    (hval : (s.pc x).before = true → ∃ (i : Nat) (b1 : Bufs), (items.filter fun y => (s.pc y).before)[i]? = some x ∧
      OpenCL.item k (view s).bufs x = .ok b1) :
    ∃ s', itemStep k x s = .ok (some s') ∧ Good s' ∧ s'.base.queue = s.base.queue ∧ (∀ y, y ≠ x → s'.pc y = s.pc y) ∧
      rank k.polySize (s'.pc x) < rank k.polySize (s.pc x) ∧
      ((s'.pc x).before = (s.pc x).before ∧ view s' = view s ∨
        (s.pc x).before = true ∧ (s'.pc x).before = false ∧
          ∃ i : Nat, (items.filter fun y => (s.pc y).before)[i]? = some x ∧ device i (view s) = .ok (some (view s'))) := by
  have hr := (good_kernel hq).1 hg
  obtain ⟨hk, hn, ho, hl, hw, hroom⟩ := hr
  have hway : (s.pc x).before = true → OnWay k s.base.bufs x (s.pc x) := by
    intro hb
    by_cases hs : s.pc x = .start
    · obtain ⟨i, b1, -, h1⟩ := hval hb
      obtain ⟨F, _, _, h2, -⟩ := (item_eq_ok hk).1 h1
      rw [view_kernel hq] at h2
      rw [value_view hk] at h2
      obtain ⟨e, n, c, h3, h4⟩ := rest_of_value h2
      exact ⟨e, n, c, F, h3, h2, by rw [hs]; exact h4⟩
    · exact hw x hb hs
  by_cases hb : (s.pc x).before = true
  · rcases busy_or hb with hy | ⟨f, hp⟩
    · obtain ⟨e, n, c, F, h1, h2, h3⟩ := hway hb
      obtain ⟨l, pc, h4, h5, h6, h7, h8⟩ := busy_step hk h1 hl hy h3
      have hv : view { base := s.base, pc := update s.pc x pc, log := l } = view s := by
        rw [view_kernel (s := { base := s.base, pc := update s.pc x pc, log := l }) hq, view_kernel hq]
        simp only
        rw [filter_same (h6.trans hb.symm), fill_same _ (before_put2 h6) (before_put2 hb)]
      refine ⟨_, h4, (good_kernel (s := { base := s.base, pc := update s.pc x pc, log := l }) hq).2
        ⟨hk, hn, ?_, h5, ?_, ?_⟩, rfl, fun y hy => update_of_ne hy .., ?_, .inl ⟨?_, hv⟩⟩
      · intro y hym
        show update s.pc x pc y = _
        rw [update_of_ne (by rintro rfl; exact hym hx)]
        exact ho y hym
      · intro y
        show (update s.pc x pc y).before = true → update s.pc x pc y ≠ .start → OnWay k s.base.bufs y (update s.pc x pc y)
        by_cases hyx : y = x
        · subst hyx
          rw [update_self]
          exact fun _ _ => ⟨e, n, c, F, h1, h2, h8⟩
        · rw [update_of_ne hyx]
          exact hw y
      · intro y f
        show update s.pc x pc y = _ → _
        by_cases hyx : y = x
        · subst hyx
          rw [update_self]
          exact fun h => absurd h (before_put2 h6 f)
        · rw [update_of_ne hyx]
          exact hroom y f
      · show rank k.polySize (update s.pc x pc x) < _
        rw [update_self]; exact h7
      · show (update s.pc x pc x).before = _
        rw [update_self, h6, hb]
    · -- the first write
      obtain ⟨i, b1, hix, hit⟩ := hval hb
      have hix0 := hix
      obtain ⟨e, n, c, F, h1, h2, h3⟩ := hway hb
      rw [hp] at h3
      cases h3
      obtain ⟨F', u, r, g1, g2, g3, g4, g5, g6⟩ := (item_eq_ok hk).1 hit
      rw [view_kernel hq] at g1 g2 g3 g6
      simp only at g1 g2 g3 g6
      rw [value_view hk, h2] at g1
      cases g1
      rw [update_of_ne hk.out] at g2
      rw [update_self] at g3
      obtain ⟨v, hv, rfl⟩ := Option.map_eq_some_iff.1 g3
      rw [length_fill] at g5
      obtain ⟨l, h5, h6⟩ := write_ok hk hl x (p := .unramified) rfl (a := (Curve.kernelOut k.pred f).1) g2 g4
      set s' : State := { base := { s.base with bufs := update s.base.bufs k.unramified (some (u.set x (Curve.kernelOut k.pred f).1)) }, pc := update s.pc x (.put2 f), log := l } with hs'
      have hq' : s'.base.queue = .kernel k items :: q := hq
      have hstep : itemStep k x s = .ok (some s') := by
        unfold itemStep
        rw [hp]
        show (write k s x .unramified x _ >>= _) = _
        rw [h6]; rfl
      have hview : device i (view s) = .ok (some (view s')) := by
        rw [view_kernel hq', view_kernel hq]
        have hit' := hit
        rw [view_kernel hq] at hit'
        simp only at hit'
        unfold device
        simp only
        have hne : ∃ y ys, (items.filter fun y => (s.pc y).before) = y :: ys := by
          cases h : items.filter fun y => (s.pc y).before with
          | nil => rw [h] at hix; cases hix
          | cons y ys => exact ⟨y, ys, rfl⟩
        obtain ⟨y, ys, hys⟩ := hne
        have hfe := filter_erase (f := f) hn hix
        rw [hys] at hix hfe ⊢
        simp only
        rw [hix]
        simp only
        rw [hit', Res.bind_ok, g6]
        congr 2
        simp only [hs', OpenCL.State.mk.injEq, true_and, and_true]
        refine ⟨?_, ?_⟩
        · have hne : update s.base.bufs k.unramified (some (u.set x (Curve.kernelOut k.pred f).1)) k.ramified = some v := by
            rw [update_of_ne hk.out.symm]; exact hv
          rw [hne, hv]
          simp only [Option.map_some]
          rw [fill_put]
          funext b
          by_cases hb1 : b = k.ramified
          · subst hb1; rw [update_self, update_self]
          · rw [update_of_ne hb1, update_of_ne hb1]
            by_cases hb2 : b = k.unramified
            · subst hb2; rw [update_self, update_self]
            · rw [update_of_ne hb2, update_of_ne hb2, update_of_ne hb1]
        · rw [hfe]
      refine ⟨s', hstep, (good_kernel hq').2 ⟨hk, hn, ?_, h5, ?_, ?_⟩, rfl, fun y hy => update_of_ne hy .., ?_,
        .inr ⟨hb, ?_, i, hix0, hview⟩⟩
      · intro y hy
        show update s.pc x _ y = _
        rw [update_of_ne (by rintro rfl; exact hy hx)]
        exact ho y hy
      · intro y hy1 hy2
        have hyx : y ≠ x := by
          rintro rfl
          simp only [hs', update_self] at hy1
          cases hy1
        simp only [hs', update_of_ne hyx] at hy1 hy2 ⊢
        refine (hw y hy1 hy2).congr ?_ ?_ ?_
        · intro v hv; rw [update_of_ne hk.c1]; exact hv
        · intro v hv; rw [update_of_ne hk.e1]; exact hv
        · intro v hv; rw [update_of_ne hk.i1]; exact hv
      · intro y f' hy
        have hb' : s'.base.bufs k.ramified = some v := by
          show update s.base.bufs k.unramified _ k.ramified = _
          rw [update_of_ne hk.out.symm]; exact hv
        by_cases hyx : y = x
        · subst hyx
          exact ⟨v, hb', g5⟩
        · simp only [hs', update_of_ne hyx] at hy
          obtain ⟨v', e1, e2⟩ := hroom y f' hy
          rw [hv] at e1
          cases e1
          exact ⟨v, hb', e2⟩
      · show rank k.polySize (update s.pc x _ x) < _
        rw [update_self, hp]
        exact Nat.lt_succ_self 1
      · show (update s.pc x _ x).before = _
        rw [update_self]; rfl
  · -- the second write
    have hp : ∃ f, s.pc x = .put2 f := by
      cases h : s.pc x <;> rw [h] at hb <;> first | exact absurd rfl hb | exact ⟨_, rfl⟩ | exact absurd h hd
    obtain ⟨f, hp⟩ := hp
    obtain ⟨v, hv, hlt⟩ := hroom x f hp
    obtain ⟨l, h5, h6⟩ := write_ok hk hl x (p := .ramified) rfl (a := (Curve.kernelOut k.pred f).2) hv hlt
    set s' : State := { base := { s.base with bufs := update s.base.bufs k.ramified (some (v.set x (Curve.kernelOut k.pred f).2)) }, pc := update s.pc x .done, log := l } with hs'
    have hq' : s'.base.queue = .kernel k items :: q := hq
    have hstep : itemStep k x s = .ok (some s') := by
      unfold itemStep
      rw [hp]
      show (write k s x .ramified x _ >>= _) = _
      rw [h6]; rfl
    have hview : view s' = view s := by
      rw [view_kernel hq', view_kernel hq]
      simp only [hs', OpenCL.State.mk.injEq, true_and, and_true]
      refine ⟨?_, ?_⟩
      · rw [update_self, hv]
        simp only [Option.map_some]
        rw [fill_done _ hp, update_idem]
      · rw [filter_same]
        rw [hp]; rfl
    refine ⟨s', hstep, (good_kernel hq').2 ⟨hk, hn, ?_, h5, ?_, ?_⟩, rfl, fun y hy => update_of_ne hy .., ?_,
      .inl ⟨?_, hview⟩⟩
    · intro y hy
      show update s.pc x _ y = _
      rw [update_of_ne (by rintro rfl; exact hy hx)]
      exact ho y hy
    · intro y hy1 hy2
      have hyx : y ≠ x := by
        rintro rfl
        simp only [hs', update_self] at hy1
        cases hy1
      simp only [hs', update_of_ne hyx] at hy1 hy2 ⊢
      refine (hw y hy1 hy2).congr ?_ ?_ ?_
      · intro v hv; rw [update_of_ne hk.c2]; exact hv
      · intro v hv; rw [update_of_ne hk.e2]; exact hv
      · intro v hv; rw [update_of_ne hk.i2]; exact hv
    · intro y f' hy
      have hyx : y ≠ x := by
        rintro rfl
        simp only [hs', update_self] at hy
        cases hy
      simp only [hs', update_of_ne hyx] at hy
      obtain ⟨v', e1, e2⟩ := hroom y f' hy
      rw [hv] at e1
      cases e1
      exact ⟨_, update_self .., by rw [List.length_set]; exact e2⟩
    · show rank k.polySize (update s.pc x _ x) < _
      rw [update_self, hp]
      exact Nat.zero_lt_one
    · show (update s.pc x _ x).before = _
      rw [update_self, hp]; rfl

theorem eq_update {pc pc' : Nat → Pc} {x : Nat} (h : ∀ y, y ≠ x → pc' y = pc y) : pc' = update pc x (pc' x) := by
  funext y
  by_cases hy : y = x
  · subst hy; rw [update_self]
  · rw [update_of_ne hy, h y hy]

/-- A step of a work item in an execution. -/
theorem item_good {junk : Buf → Nat → Nat} {z : Now} {s : State} (hg : Good s) (hi : Inv junk z (view s)) {k : Kernel}
    {items : List Nat} {q : List Cmd} (hq : s.base.queue = .kernel k items :: q) {x : Nat} (hx : x ∈ items)
    (hd : s.pc x ≠ .done) :
    ∃ s', itemStep k x s = .ok (some s') ∧ Good s' ∧ Inv junk z (view s') ∧ Less s' s := by
  have hr := (good_kernel hq).1 hg
  obtain ⟨s', h1, h2, h3, h4, h5, h6⟩ := item_sim hg hq hx hd (by
    intro hb
    have hm : x ∈ items.filter fun y => (s.pc y).before := List.mem_filter.2 ⟨hx, hb⟩
    obtain ⟨i, hi'⟩ := List.getElem?_of_mem hm
    obtain ⟨b, hf, -⟩ := hi.sim
    rw [view_kernel hq] at hf ⊢
    unfold flush at hf
    rw [List.foldlM_cons, Res.bind_eq_ok] at hf
    obtain ⟨b1, h1, -⟩ := hf
    obtain ⟨b2, h2, -⟩ := items_pick hr.sep (hr.nodup.filter _) h1 hi'
    exact ⟨i, b2, hi', h2⟩)
  refine ⟨s', h1, h2, ?_⟩
  rcases h6 with ⟨-, h6⟩ | ⟨-, -, i, -, h6⟩
  · refine ⟨by rw [h6]; exact hi, .inr ⟨by rw [h6], ?_⟩⟩
    rw [ranks_kernel (h3.trans hq), ranks_kernel hq, eq_update h4]
    exact sum_update hr.nodup hx (rank k.polySize) s.pc h5
  · rcases inv_device hi i with ⟨h, -⟩ | ⟨t', h7, h8, h9⟩
    · rw [h6] at h; cases h
    · rw [h6] at h7
      cases h7
      exact ⟨h8, .inl h9⟩

end Items
end Hycu
