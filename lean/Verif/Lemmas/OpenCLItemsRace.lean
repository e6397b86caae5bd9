import Verif.Lemmas.OpenCLItemsRun

/-!
Executions with work items in one step are executions with single accesses; kernels whose outputs are the same buffer.
-/

namespace Hycu
namespace Items

open OpenCL Function

theorem Reachable.trans {P : State → Action → Prop} {junk : Buf → Nat → Nat} {s₀ s₁ s₂ : State}
    (h : Reachable P junk s₀ s₁) (h' : Reachable P junk s₁ s₂) : Reachable P junk s₀ s₂ := by
  induction h' with
  | refl => exact h
  | step _ ha hs ih => exact .step ih ha hs

/-- Kernels that are or will be in the queue have separate buffers. -/
structure Sound (t : OpenCL.State) : Prop where
  todo : ∀ op ∈ t.todo, OpOk op
  queue : ∀ k items, Cmd.kernel k items ∈ t.queue → k.Sep ∧ items.Nodup

theorem Sound.host {junk : Buf → Nat → Nat} {t t' : OpenCL.State} (hs : Sound t) (h : OpenCL.host junk t = .ok (some t')) :
    Sound t' := by
  unfold OpenCL.host at h
  have tail : ∀ {op : Op} {r : List Op}, t.todo = op :: r → ∀ o ∈ r, OpOk o :=
    fun ht o ho => hs.todo o (by rw [ht]; exact List.mem_cons_of_mem _ ho)
  split at h
  · cases h
  · rename_i ht
    split at h <;> cases h
    exact ⟨tail ht, hs.queue⟩
  · rename_i ht
    split at h <;> cases h
    exact ⟨tail ht, hs.queue⟩
  · rename_i ht
    split at h <;> cases h
    exact ⟨tail ht, hs.queue⟩
  · rename_i c r ht
    obtain ⟨_, _, h2⟩ := Res.bind_eq_ok.1 h
    cases h2
    refine ⟨tail ht, fun k items hm => ?_⟩
    rcases List.mem_append.1 hm with hm | hm
    · exact hs.queue k items hm
    · rw [List.mem_singleton] at hm
      subst hm
      exact hs.todo (.enqueue (.kernel k items)) (by rw [ht]; exact List.mem_cons_self)
  · rename_i ht
    split at h
    · obtain ⟨_, _, h2⟩ := Res.bind_eq_ok.1 h
      split at h2 <;> cases h2
      exact ⟨tail ht, hs.queue⟩
    · cases h

/-- A state between two work items. -/
structure Between (s : State) (t : OpenCL.State) : Prop where
  view : view s = t
  good : Good s
  idle : ∀ x, s.pc x = .start ∨ s.pc x = .done
  sound : Sound s.base

theorem Between.put {s : State} {t : OpenCL.State} (h : Between s t) (x f : Nat) : s.pc x ≠ .put2 f := by
  rcases h.idle x with e | e <;> rw [e] <;> simp

theorem view_todo (s : State) : (view s).todo = s.base.todo := by
  unfold view
  split <;> rfl

theorem device_todo {i : Nat} {t t' : OpenCL.State} (h : device i t = .ok (some t')) : t'.todo = t.todo := by
  unfold device at h
  split at h
  · cases h
  · obtain ⟨_, _, h2⟩ := Res.bind_eq_ok.1 h
    cases h2; rfl
  · cases h; rfl
  · split at h
    · cases h
    · obtain ⟨_, _, h2⟩ := Res.bind_eq_ok.1 h
      cases h2; rfl

/-- One work item from its beginning to its end. -/
theorem item_runs {junk : Buf → Nat → Nat} {k : Kernel} {items : List Nat} {q : List Cmd} {t t' : OpenCL.State} {x i : Nat}
    (hx : x ∈ items) (hdev : device i t = .ok (some t')) (hit : ∃ b1, OpenCL.item k t.bufs x = .ok b1) :
    ∀ (n : Nat) {s : State}, Good s → s.base.queue = .kernel k items :: q → rank k.polySize (s.pc x) = n →
      ((s.pc x).before = true → (items.filter fun y => (s.pc y).before)[i]? = some x) →
      ((s.pc x).before = true → view s = t) → ((s.pc x).before = false → view s = t') →
      ∃ s', Reachable Any junk s s' ∧ Good s' ∧ view s' = t' ∧ s'.pc x = .done ∧ (∀ y, y ≠ x → s'.pc y = s.pc y) ∧
        s'.base.queue = s.base.queue := by
  intro n
  induction n using Nat.strong_induction_on with
  | _ n ih =>
    intro s hg hq hn hi h1 h2
    by_cases hd : s.pc x = .done
    · exact ⟨s, .refl, hg, h2 (by rw [hd]; rfl), hd, fun _ _ => rfl, rfl⟩
    · have hr := (good_kernel hq).1 hg
      obtain ⟨b1, hit⟩ := hit
      obtain ⟨s1, e1, e2, e3, e4, e5, e6⟩ := item_sim hg hq hx hd
        (fun hb => ⟨i, b1, hi hb, by rw [h1 hb]; exact hit⟩)
      have hst : step junk s (.item x) = .ok (some s1) := by
        show item x s = _
        unfold item
        rw [hq]
        simp only
        rw [if_pos hx]
        exact e1
      have hpc := eq_update e4
      obtain ⟨s', g1, g2, g3, g4, g5, g6⟩ := ih _ (hn ▸ e5) (s := s1) e2 (e3.trans hq) rfl
        (by
          intro hb
          rcases e6 with ⟨e7, -⟩ | ⟨-, e7, -⟩
          · rw [hpc, filter_same e7]
            exact hi (e7 ▸ hb)
          · rw [hb] at e7; cases e7)
        (by
          intro hb
          rcases e6 with ⟨e7, e8⟩ | ⟨-, e7, -⟩
          · rw [e8]; exact h1 (e7 ▸ hb)
          · rw [hb] at e7; cases e7)
        (by
          intro hb
          rcases e6 with ⟨e7, e8⟩ | ⟨e7, -, j, e8, e9⟩
          · rw [e8]; exact h2 (e7 ▸ hb)
          · have hj : j = i := by
              obtain ⟨a1, a2⟩ := List.getElem?_eq_some_iff.1 e8
              obtain ⟨a3, a4⟩ := List.getElem?_eq_some_iff.1 (hi e7)
              exact ((hr.nodup.filter _).getElem_inj_iff).1 (a2.trans a4.symm)
            subst hj
            rw [h1 e7, hdev] at e9
            cases e9; rfl)
      exact ⟨s', .trans (.step .refl trivial hst) g1, g2, g3, g4, fun y hy => (g5 y hy).trans (e4 y hy), g6.trans e3⟩

/-- A step of the machine with work items in one step is an execution with single accesses. -/
theorem lift_step {junk : Buf → Nat → Nat} {s : State} {t t' : OpenCL.State} (h : Between s t) {a : OpenCL.Action}
    (hs : OpenCL.step junk t a = .ok (some t')) : ∃ s', Reachable Any junk s s' ∧ Between s' t' := by
  obtain ⟨rfl, hg, hidle, hsound⟩ := h
  cases a with
  | host =>
    replace hs : host junk (view s) = .ok (some t') := hs
    by_cases hq : ∃ k items q, s.base.queue = .kernel k items :: q
    · obtain ⟨k, items, q, hq⟩ := hq
      have hr := (good_kernel hq).1 hg
      rw [host_view hg hq] at hs
      obtain ⟨o, h4, h5⟩ := Res.bind_eq_ok.1 hs
      cases o with
      | none => cases h5
      | some b =>
        simp only [Option.map_some, Res.ok.injEq, Option.some.injEq] at h5
        obtain ⟨h6, r, h7⟩ := host_keeps h4
        have hq' : ({ s with base := b } : State).base.queue = .kernel k items :: (q ++ r) := by
          show b.queue = _
          rw [h7, hq]; rfl
        refine ⟨{ s with base := b }, .step .refl trivial (a := .host) (by show (host junk s.base >>= _) = _; rw [h4]; rfl),
          h5, (good_kernel hq').2 ⟨hr.sep, hr.nodup, hr.others, hr.log, ?_, ?_⟩, hidle, hsound.host h4⟩
        · intro x hx1 hx2
          exact (hr.way x hx1 hx2).congr (h6 _) (h6 _) (h6 _)
        · intro x f hx
          obtain ⟨v, e1, e2⟩ := hr.room x f hx
          exact ⟨v, h6 _ _ e1, e2⟩
    · push Not at hq
      obtain ⟨hpc, hl⟩ := (good_other hq).1 hg
      rw [view_other hq] at hs
      have hs' := hsound.host hs
      exact ⟨{ s with base := t' }, .step .refl trivial (a := .host) (by show (host junk s.base >>= _) = _; rw [hs]; rfl),
        view_fresh (s := { s with base := t' }) hpc, good_fresh (s := { s with base := t' }) hpc hl hs'.queue, hidle, hs'⟩
  | device i =>
    replace hs : device i (view s) = .ok (some t') := hs
    have htodo : t'.todo = s.base.todo := (device_todo hs).trans (view_todo s)
    cases hq : s.base.queue with
    | nil =>
      rw [view_other (by simp [hq])] at hs
      unfold device at hs
      rw [hq] at hs
      cases hs
    | cons c q =>
      have hsq : ∀ k items, Cmd.kernel k items ∈ q → k.Sep ∧ items.Nodup :=
        fun k items hm => hsound.queue k items (by rw [hq]; exact List.mem_cons_of_mem _ hm)
      cases c with
      | write b a n =>
        have hne : ∀ k items q, s.base.queue ≠ .kernel k items :: q := by simp [hq]
        obtain ⟨hpc, hl⟩ := (good_other hne).1 hg
        rw [view_other hne] at hs
        unfold device at hs
        rw [hq] at hs
        simp only at hs
        obtain ⟨bufs, e1, e2⟩ := Res.bind_eq_ok.1 hs
        cases e2
        refine ⟨{ s with base := { s.base with bufs := bufs, queue := q } }, .step .refl trivial (a := .next) ?_,
          view_fresh (s := { s with base := _ }) hpc, good_fresh hpc hl hsq, hidle, ⟨hsound.todo, hsq⟩⟩
        show next s = _
        unfold next
        rw [hq]
        simp only
        rw [e1]; rfl
      | kernel k items =>
        have hr := (good_kernel hq).1 hg
        have hput : ∀ x f, s.pc x ≠ .put2 f := by
          intro x f
          rcases hidle x with e | e <;> rw [e] <;> simp
        have hview : view s = { s.base with queue := .kernel k (items.filter fun x => (s.pc x).before) :: q } := by
          rw [view_kernel hq, update_map_id (fill_start _ hput)]
        have hs0 := hs
        rw [hview] at hs
        unfold device at hs
        simp only at hs
        cases hf : items.filter fun x => (s.pc x).before with
        | nil =>
          rw [hf] at hs
          cases hs
          set s' : State := { base := { s.base with queue := q }, pc := fun _ => .start, log := [] } with hs'
          refine ⟨s', .step .refl trivial (a := .next) ?_, view_fresh rfl, good_fresh rfl rfl hsq, fun _ => .inl rfl,
            ⟨hsound.todo, hsq⟩⟩
          show next s = _
          unfold next
          rw [hq]
          simp only
          rw [if_pos]
          intro x hx
          have := List.filter_eq_nil_iff.1 hf x hx
          rcases hidle x with e | e
          · rw [e] at this; exact absurd rfl this
          · exact e
        | cons y ys =>
          rw [hf] at hs
          simp only at hs
          split at hs
          · cases hs
          · rename_i x hx
            obtain ⟨b1, e1, e2⟩ := Res.bind_eq_ok.1 hs
            rw [← hf] at hx
            have hm := List.mem_of_getElem? hx
            obtain ⟨hxm, hxb⟩ := List.mem_filter.1 hm
            obtain ⟨s', g1, g2, g3, g4, g5, g6⟩ := item_runs (junk := junk) hxm hs0 ⟨b1, by rw [hview]; exact e1⟩ _ hg hq rfl
              (fun _ => hx) (fun _ => rfl) (fun h => by rw [hxb] at h; cases h)
            refine ⟨s', g1, g3, g2, fun z => ?_, ?_, ?_⟩
            · by_cases hz : z = x
              · subst hz; exact .inr g4
              · rw [g5 z hz]; exact hidle z
            · rw [← view_todo s', g3, htodo]
              exact hsound.todo
            · rw [g6]; exact hsound.queue

theorem lift {junk : Buf → Nat → Nat} {s : State} {t t' : OpenCL.State} (h : Between s t)
    (hr : OpenCL.Reachable OpenCL.Any junk t t') : ∃ s', Reachable Any junk s s' ∧ Between s' t' := by
  induction hr with
  | refl => exact ⟨s, .refl, h⟩
  | step _ _ hs ih =>
    obtain ⟨s1, h1, h2⟩ := ih
    obtain ⟨s2, h3, h4⟩ := lift_step h2 hs
    exact ⟨s2, h1.trans h3, h4⟩

/-- The read of coefficients that have been freed. -/
theorem late {junk : Buf → Nat → Nat} {z : Now} {rts : Nat → ReductionTable} {es : List Event}
    (h : Inv junk z (OpenCL.initial rts es)) (hc : counts es ≠ []) :
    ∃ s, Reachable Any junk (initial rts es) s ∧ step junk s .next = .ub := by
  obtain ⟨t, h1, h2, b, n, q, h3⟩ := race h hc
  obtain ⟨s, h4, h5⟩ := lift (s := initial rts es) (t := OpenCL.initial rts es)
    ⟨view_fresh rfl, good_fresh rfl rfl (fun _ _ => h.fits _), fun _ => .inl rfl, h.ok, fun _ _ => h.fits _⟩ h1
  have hne : ∀ k items q, s.base.queue ≠ .kernel k items :: q := by
    intro k items q' hq
    have h6 := h5.view
    rw [view_kernel hq] at h6
    rw [← h6] at h3
    cases h3
  have h6 := h5.view
  rw [view_other hne] at h6
  refine ⟨s, h4, ?_⟩
  show next s = _
  unfold next
  rw [h6, h3]
  simp only
  replace h2 : device 0 t = .ub := h2
  unfold device at h2
  rw [h3] at h2
  simp only at h2
  cases ht : transfer t.heap t.bufs b .arg n with
  | ok v => rw [ht] at h2; cases h2
  | ub => rfl
  | abort => rw [ht] at h2; cases h2
  | diverge => rw [ht] at h2; cases h2

/-! ### Kernels whose outputs are the same buffer -/

/-- The second write has not been made, and the first one is known. -/
def Stuck (k : Kernel) (x : Nat) (s : State) : Prop :=
  s.pc x ≠ .done ∧ ∀ f, s.pc x = .put2 f → (⟨k.unramified, x, x, .unramified, true⟩ : Access) ∈ s.log

theorem note_log {s s' : State} {a : Access} (h : note s a = .ok s') : s' = { s with log := a :: s.log } := by
  unfold note at h
  split at h <;> cases h
  rfl

theorem read_log {k : Kernel} {s s' : State} {x i v : Nat} {p : Param} (h : read k s x p i = .ok (s', v)) :
    ∃ a, s' = { s with log := a :: s.log } := by
  unfold read at h
  obtain ⟨_, _, h⟩ := Res.bind_eq_ok.1 h
  obtain ⟨_, _, h⟩ := Res.bind_eq_ok.1 h
  obtain ⟨_, h1, h⟩ := Res.bind_eq_ok.1 h
  cases h
  exact ⟨_, note_log h1⟩

/-- What a step of a work item does to where the work items are, and to the list of accesses. -/
theorem itemStep_log {k : Kernel} {y : Nat} {s s' : State} (h : itemStep k y s = .ok (some s')) :
    ∃ (pc : Pc) (l : List Access), s'.pc = update s.pc y pc ∧ s'.log = l ++ s.log ∧ s'.base.queue = s.base.queue ∧
      s'.base.todo = s.base.todo ∧ (pc = .done → (∃ f, s.pc y = .put2 f) ∧ s.log.any (⟨k.ramified, y, y, .ramified, true⟩ : Access).conflict = false) ∧
      (∀ f, pc = .put2 f → (⟨k.unramified, y, y, .unramified, true⟩ : Access) ∈ l) := by
  unfold itemStep at h
  split at h
  · obtain ⟨⟨s1, v⟩, h1, h2⟩ := Res.bind_eq_ok.1 h
    obtain ⟨a, rfl⟩ := read_log h1
    cases h2
    exact ⟨_, [a], rfl, rfl, rfl, rfl, nofun, nofun⟩
  · split at h
    · obtain ⟨_, _, h2⟩ := Res.bind_eq_ok.1 h
      cases h2
      exact ⟨_, [], rfl, rfl, rfl, rfl, nofun, nofun⟩
    · cases h
      exact ⟨_, [], rfl, rfl, rfl, rfl, nofun, nofun⟩
  · obtain ⟨⟨s1, v⟩, h1, h2⟩ := Res.bind_eq_ok.1 h
    obtain ⟨a, rfl⟩ := read_log h1
    cases h2
    exact ⟨_, [a], rfl, rfl, rfl, rfl, nofun, nofun⟩
  · obtain ⟨⟨s1, v⟩, h1, h2⟩ := Res.bind_eq_ok.1 h
    obtain ⟨a, rfl⟩ := read_log h1
    cases h2
    refine ⟨_, [a], rfl, rfl, rfl, rfl, ?_, ?_⟩
    · split <;> nofun
    · intro f
      split <;> nofun
  · obtain ⟨⟨s1, v⟩, h1, h2⟩ := Res.bind_eq_ok.1 h
    obtain ⟨a, rfl⟩ := read_log h1
    obtain ⟨_, _, h2⟩ := Res.bind_eq_ok.1 h2
    cases h2
    exact ⟨_, [a], rfl, rfl, rfl, rfl, nofun, nofun⟩
  · obtain ⟨⟨s1, v⟩, h1, h2⟩ := Res.bind_eq_ok.1 h
    obtain ⟨a, rfl⟩ := read_log h1
    cases h2
    refine ⟨_, [a], rfl, rfl, rfl, rfl, ?_, ?_⟩
    · split
      · nofun
      · split <;> nofun
    · intro f
      split
      · nofun
      · split <;> nofun
  · obtain ⟨⟨s1, v⟩, h1, h2⟩ := Res.bind_eq_ok.1 h
    obtain ⟨a, rfl⟩ := read_log h1
    simp only at h2
    split at h2
    · obtain ⟨_, _, h2⟩ := Res.bind_eq_ok.1 h2
      cases h2
      exact ⟨_, [a], rfl, rfl, rfl, rfl, nofun, nofun⟩
    · cases h2
      exact ⟨_, [a], rfl, rfl, rfl, rfl, nofun, nofun⟩
  · obtain ⟨⟨s1, v⟩, h1, h2⟩ := Res.bind_eq_ok.1 h
    obtain ⟨a, rfl⟩ := read_log h1
    cases h2
    exact ⟨_, [a], rfl, rfl, rfl, rfl, nofun, nofun⟩
  · obtain ⟨s1, h1, h2⟩ := Res.bind_eq_ok.1 h
    unfold write at h1
    obtain ⟨_, _, h1⟩ := Res.bind_eq_ok.1 h1
    obtain ⟨s2, h3, h1⟩ := Res.bind_eq_ok.1 h1
    have := note_log h3
    subst this
    cases h1
    cases h2
    exact ⟨_, [⟨k.unramified, y, y, .unramified, true⟩], rfl, rfl, rfl, rfl, nofun, fun _ _ => List.mem_cons_self⟩
  · rename_i f hf
    obtain ⟨s1, h1, h2⟩ := Res.bind_eq_ok.1 h
    unfold write at h1
    obtain ⟨_, _, h1⟩ := Res.bind_eq_ok.1 h1
    obtain ⟨s2, h3, h1⟩ := Res.bind_eq_ok.1 h1
    have hn := note_log h3
    subst hn
    cases h1
    cases h2
    refine ⟨_, [⟨k.ramified, y, y, .ramified, true⟩], rfl, rfl, rfl, rfl, fun _ => ⟨⟨f, hf⟩, ?_⟩, nofun⟩
    unfold note at h3
    split at h3
    · cases h3
    · rename_i hc
      exact Bool.eq_false_iff.2 hc
  · cases h

/-- A kernel with the same buffer for both outputs does not end. -/
theorem same_stuck {junk : Buf → Nat → Nat} {k : Kernel} (hk : k.unramified = k.ramified) {items : List Nat} {x : Nat}
    (hx : x ∈ items) {s₀ s : State} (hr : Reachable Any junk s₀ s) {q : List Cmd}
    (hq : s₀.base.queue = .kernel k items :: q) (h0 : Stuck k x s₀) :
    (∃ r, s.base.queue = .kernel k items :: r) ∧ Stuck k x s := by
  induction hr with
  | refl => exact ⟨⟨q, hq⟩, h0⟩
  | @step s s' a _ _ hs ih =>
    obtain ⟨⟨r, hqs⟩, hd, hlog⟩ := ih
    cases a with
    | host =>
      obtain ⟨o, h1, h2⟩ := Res.bind_eq_ok.1 hs
      cases o with
      | none => cases h2
      | some b =>
        cases h2
        obtain ⟨_, r', h3⟩ := host_keeps h1
        exact ⟨⟨r ++ r', by show b.queue = _; rw [h3, hqs]; rfl⟩, hd, hlog⟩
    | next =>
      replace hs : next s = .ok (some s') := hs
      unfold next at hs
      rw [hqs] at hs
      simp only at hs
      split at hs
      · rename_i hall
        exact absurd (hall x hx) hd
      · cases hs
    | item y =>
      replace hs : item y s = .ok (some s') := hs
      unfold item at hs
      rw [hqs] at hs
      simp only at hs
      split at hs
      · obtain ⟨pc, l, h1, h2, h3, -, h4, h5⟩ := itemStep_log hs
        refine ⟨⟨r, h3.trans hqs⟩, ?_, ?_⟩
        · rw [h1]
          by_cases hy : x = y
          · subst hy
            rw [update_self]
            intro hpc
            obtain ⟨⟨f, hf⟩, hc⟩ := h4 hpc
            have hm := hlog f hf
            have := List.any_eq_false.1 hc _ hm
            simp [Access.conflict, hk] at this
          · rw [update_of_ne hy]; exact hd
        · intro f hf
          rw [h1] at hf
          rw [h2]
          by_cases hy : x = y
          · subst hy
            rw [update_self] at hf
            exact List.mem_append_left _ (h5 f hf)
          · rw [update_of_ne hy] at hf
            exact List.mem_append_right _ (hlog f hf)
      · cases hs

/-! ### A kernel alone -/

/-- When the host has nothing to do, nothing is freed. -/
theorem alone {junk : Buf → Nat → Nat} {s₀ s : State} (h0 : s₀.base.todo = []) (hr : Reachable Any junk s₀ s) :
    Reachable Prompt junk s₀ s ∧ s.base.todo = [] := by
  induction hr with
  | refl => exact ⟨.refl, h0⟩
  | @step s s' a _ _ hs ih =>
    obtain ⟨h1, h2⟩ := ih
    cases a with
    | host =>
      exfalso
      obtain ⟨o, h3, h4⟩ := Res.bind_eq_ok.1 hs
      unfold host at h3
      rw [h2] at h3
      cases h3
      cases h4
    | next =>
      refine ⟨.step (a := .next) h1 trivial hs, ?_⟩
      replace hs : next s = .ok (some s') := hs
      unfold next at hs
      split at hs
      · cases hs
      · obtain ⟨_, _, h3⟩ := Res.bind_eq_ok.1 hs
        cases h3
        exact h2
      · split at hs <;> cases hs
        exact h2
    | item y =>
      refine ⟨.step (a := .item y) h1 trivial hs, ?_⟩
      replace hs : item y s = .ok (some s') := hs
      unfold item at hs
      split at hs
      · split at hs
        · obtain ⟨_, _, _, _, _, h3, _⟩ := itemStep_log hs
          exact h3.trans h2
        · cases hs
      · cases hs

theorem alone_prompt {s : State} (h : s.base.todo = []) (a : Action) : Prompt s a := by
  cases a with
  | host =>
    intro r hr
    rw [h] at hr; cases hr
  | next => trivial
  | item x => trivial

/-- The invariant for a kernel alone. -/
theorem inv_alone {junk : Buf → Nat → Nat} {k : Kernel} (hk : k.Sep) {heap : Heap} {bufs bufs' : Bufs} {items : List Nat}
    {out : List (List Nat)} (hn : items.Nodup) (h : items.foldlM (OpenCL.item k) bufs = .ok bufs') :
    Inv junk ⟨heap, bufs', out⟩ ⟨heap, bufs, [.kernel k items], [], out⟩ := by
  refine ⟨⟨bufs', ?_, rfl⟩, ?_, by simp, [], ?_, trivial⟩
  · unfold flush
    rw [List.foldlM_cons, show exec heap bufs (.kernel k items) = .ok bufs' from h]
    rfl
  · intro c hc
    rw [List.mem_singleton.1 hc]
    exact ⟨hk, hn⟩
  · intro c hc a ha
    rw [List.mem_singleton.1 hc] at ha
    cases ha

end Items
end Hycu
