import Verif.Lemmas.OpenCLItemsSim

/-!
Steps of the host and of the queue in the machine with single accesses, and whole executions.
-/

namespace Hycu
namespace Items

open OpenCL Function

theorem get_map {bufs bufs' : Bufs} (h : SameShape bufs bufs') (b : Buf) :
    (∃ v w, get bufs b = .ok v ∧ get bufs' b = .ok w ∧ v.length = w.length) ∨ get bufs b = .ub ∧ get bufs' b = .ub := by
  have h1 := h b
  unfold OpenCL.get
  cases h2 : bufs b with
  | none =>
    rw [h2] at h1
    cases h3 : bufs' b with
    | none => exact .inr ⟨rfl, rfl⟩
    | some w => rw [h3] at h1; cases h1
  | some v =>
    rw [h2] at h1
    cases h3 : bufs' b with
    | none => rw [h3] at h1; cases h1
    | some w =>
      rw [h3] at h1
      exact .inl ⟨v, w, rfl, rfl, Option.some.inj h1⟩

theorem check_eq {bufs bufs' : Bufs} (h : SameShape bufs bufs') (c : Cmd) : check bufs c = check bufs' c := by
  cases c with
  | write b a n =>
    simp only [check]
    rcases get_map h b with ⟨v, w, h1, h2, h3⟩ | ⟨h1, h2⟩
    · rw [h1, h2]
      simp only [Res.bind_ok, h3]
    · rw [h1, h2]
  | kernel k items =>
    unfold check
    have key : ∀ (b : Buf) (f g : Res Unit), f = g → (get bufs b >>= fun _ => f) = (get bufs' b >>= fun _ => g) := by
      intro b f g hfg
      rcases get_map h b with ⟨v, w, h1, h2, -⟩ | ⟨h1, h2⟩
      · rw [h1, h2, Res.bind_ok, Res.bind_ok, hfg]
      · rw [h1, h2]; rfl
    exact key _ _ _ (key _ _ _ (key _ _ _ (key _ _ _ (key _ _ _ rfl))))

/-- The host keeps buffers, and puts commands to the end of the queue. -/
theorem host_keeps {junk : Buf → Nat → Nat} {t t' : OpenCL.State} (h : host junk t = .ok (some t')) :
    (∀ b v, t.bufs b = some v → t'.bufs b = some v) ∧ ∃ r, t'.queue = t.queue ++ r := by
  unfold host at h
  split at h
  · cases h
  · split at h
    · cases h
    · cases h; exact ⟨fun _ _ h => h, [], by simp⟩
  · split at h
    · cases h; exact ⟨fun _ _ h => h, [], by simp⟩
    · cases h
  · rename_i b n r _
    split at h
    · cases h
    · rename_i hb
      cases h
      refine ⟨fun b' v hv => ?_, [], by simp⟩
      show update t.bufs b _ b' = _
      rw [update_of_ne]
      · exact hv
      · rintro rfl
        rw [hv] at hb; simp at hb
  · rename_i c r _
    obtain ⟨_, _, h2⟩ := Res.bind_eq_ok.1 h
    cases h2
    exact ⟨fun _ _ h => h, [c], rfl⟩
  · split at h
    · obtain ⟨v, _, h2⟩ := Res.bind_eq_ok.1 h
      split at h2
      · cases h2; exact ⟨fun _ _ h => h, [], by simp⟩
      · cases h2
    · cases h

theorem view_shape {s : State} : SameShape s.base.bufs (view s).bufs := by
  unfold view
  split
  · rename_i k items q _
    intro b
    by_cases hb : b = k.ramified
    · subst hb
      simp only [update_self, Option.map_map]
      congr 1
      funext v
      exact (length_fill ..).symm
    · simp only [update_of_ne hb]
  · intro b; rfl

/-- The steps of the host do not depend on how far the work items are. -/
theorem host_view {junk : Buf → Nat → Nat} {s : State} (hg : Good s) {k : Kernel} {items : List Nat} {q : List Cmd}
    (hq : s.base.queue = .kernel k items :: q) :
    host junk (view s) = (host junk s.base >>= fun o => .ok (o.map fun b => view { s with base := b })) := by
  have hr := (good_kernel hq).1 hg
  have hv := view_kernel hq
  have hsh := view_shape (s := s)
  have htodo : (view s).todo = s.base.todo := by rw [hv]
  have hheap : (view s).heap = s.base.heap := by rw [hv]
  have hqv : (view s).queue = .kernel k (items.filter fun x => (s.pc x).before) :: q := by rw [hv]
  unfold host
  rw [htodo, hheap]
  cases ht : s.base.todo with
  | nil => rfl
  | cons op r =>
    cases op with
    | alloc a v =>
      simp only
      split
      · rfl
      · rw [Res.bind_ok]
        simp only [Option.map_some]
        rw [hv, view_kernel (s := State.mk _ s.pc s.log) (k := k) (items := items) (q := q) (by exact hq)]
    | free a =>
      simp only
      split
      · rw [Res.bind_ok]
        simp only [Option.map_some]
        rw [hv, view_kernel (s := State.mk _ s.pc s.log) (k := k) (items := items) (q := q) (by exact hq)]
      · rfl
    | create b n =>
      simp only
      have hb : ((view s).bufs b).isSome = (s.base.bufs b).isSome := by
        have := hsh b
        cases h1 : s.base.bufs b <;> cases h2 : (view s).bufs b <;> rw [h1, h2] at this <;> first | rfl | cases this
      rw [hb]
      split
      · rfl
      · rename_i hb'
        have hnone : s.base.bufs b = none := by simpa using hb'
        rw [Res.bind_ok]
        simp only [Option.map_some]
        rw [hv, view_kernel (s := State.mk _ s.pc s.log) (k := k) (items := items) (q := q) (by exact hq)]
        congr 2
        simp only [OpenCL.State.mk.injEq, true_and, and_true]
        by_cases hbr : b = k.ramified
        · subst hbr
          have hfill : ∀ v, fill k.pred s.pc v = v := fill_start _ (by
            intro x f hx
            obtain ⟨v, h1, _⟩ := hr.room x f hx
            rw [hnone] at h1; cases h1)
          rw [update_idem, update_self, Option.map_some, hfill, update_idem]
        · rw [update_of_ne (Ne.symm hbr), update_comm (Ne.symm hbr)]
    | enqueue c =>
      simp only
      rw [check_eq hsh c]
      cases check (view s).bufs c with
      | ok u =>
        simp only [Res.bind_ok, Option.map_some]
        rw [hv, view_kernel (s := State.mk _ s.pc s.log) (k := k) (items := items) (q := q ++ [c]) (by
          show s.base.queue ++ [c] = _
          rw [hq]; rfl)]
        rfl
      | ub => rfl
      | abort => rfl
      | diverge => rfl
    | read b n =>
      simp only
      rw [hqv, hq]
      rfl

theorem prompt_view {s : State} (h : Prompt s .host) : OpenCL.Prompt (view s) .host := by
  intro r hr b n hm
  cases hq : s.base.queue with
  | nil =>
    rw [view_other (by simp [hq])] at hr hm
    exact h r hr b n hm
  | cons c q =>
    cases c with
    | write b' a' n' =>
      rw [view_other (by simp [hq])] at hr hm
      exact h r hr b n hm
    | kernel k items =>
      rw [view_kernel hq] at hr hm
      refine h r hr b n ?_
      rw [hq]
      rcases List.mem_cons.1 hm with hm | hm
      · cases hm
      · exact List.mem_cons_of_mem _ hm

theorem host_good {junk : Buf → Nat → Nat} {z : Now} {s : State} (hg : Good s) (hi : Inv junk z (view s))
    (hp : Prompt s .host) :
    (step junk s .host = .ok none ∧ (s.base.todo = [] ∨ s.base.queue ≠ [])) ∨
    ∃ s', step junk s .host = .ok (some s') ∧ Good s' ∧ Inv junk z (view s') ∧ Less s' s := by
  have hp' := prompt_view hp
  by_cases hq : ∃ k items q, s.base.queue = .kernel k items :: q
  · obtain ⟨k, items, q, hq⟩ := hq
    have hr := (good_kernel hq).1 hg
    have hv := host_view (junk := junk) hg hq
    rcases inv_host hi hp' with ⟨h1, h2⟩ | ⟨t', h1, h2, h3⟩
    · left
      rw [hv] at h1
      obtain ⟨o, h4, h5⟩ := Res.bind_eq_ok.1 h1
      cases o with
      | none => exact ⟨by show (host junk s.base >>= _) = _; rw [h4]; rfl, .inr (by rw [hq]; simp)⟩
      | some b => cases h5
    · right
      rw [hv] at h1
      obtain ⟨o, h4, h5⟩ := Res.bind_eq_ok.1 h1
      cases o with
      | none => cases h5
      | some b =>
        simp only [Option.map_some, Res.ok.injEq, Option.some.injEq] at h5
        subst h5
        obtain ⟨h6, r, h7⟩ := host_keeps h4
        have hq' : ({ s with base := b } : State).base.queue = .kernel k items :: (q ++ r) := by
          show b.queue = _
          rw [h7, hq]; rfl
        refine ⟨{ s with base := b }, by show (host junk s.base >>= _) = _; rw [h4]; rfl, (good_kernel hq').2
          ⟨hr.sep, hr.nodup, hr.others, hr.log, ?_, ?_⟩, h2, .inl h3⟩
        · intro x hx1 hx2
          exact (hr.way x hx1 hx2).congr (h6 _) (h6 _) (h6 _)
        · intro x f hx
          obtain ⟨v, e1, e2⟩ := hr.room x f hx
          exact ⟨v, h6 _ _ e1, e2⟩
  · push Not at hq
    obtain ⟨hpc, hl⟩ := (good_other hq).1 hg
    rw [view_other hq] at hi hp'
    rcases inv_host hi hp' with ⟨h1, h2⟩ | ⟨t', h1, h2, h3⟩
    · exact .inl ⟨by show (host junk s.base >>= _) = _; rw [h1]; rfl, h2⟩
    · right
      have hv' : view { s with base := t' } = t' := view_fresh (s := { s with base := t' }) hpc
      refine ⟨{ s with base := t' }, by show (host junk s.base >>= _) = _; rw [h1]; rfl,
        good_fresh (s := { s with base := t' }) hpc hl fun _ _ => h2.fits _, by rw [hv']; exact h2, .inl ?_⟩
      rw [hv', view_other hq]
      exact h3

theorem next_good {junk : Buf → Nat → Nat} {z : Now} {s : State} (hg : Good s) (hi : Inv junk z (view s)) :
    (next s = .ok none ∧ (s.base.queue = [] ∨ ∃ k items q, s.base.queue = .kernel k items :: q ∧ ∃ x ∈ items, s.pc x ≠ .done)) ∨
    ∃ s', next s = .ok (some s') ∧ Good s' ∧ Inv junk z (view s') ∧ Less s' s := by
  cases hq : s.base.queue with
  | nil => exact .inl ⟨by unfold next; rw [hq], .inl rfl⟩
  | cons c q =>
    cases c with
    | write b a n =>
      right
      have hne : ∀ k items q, s.base.queue ≠ .kernel k items :: q := by simp [hq]
      obtain ⟨hpc, hl⟩ := (good_other hne).1 hg
      rw [view_other hne] at hi
      rcases inv_device hi 0 with ⟨h1, h2⟩ | ⟨t', h1, h2, h3⟩
      · rw [h2 rfl] at hq; cases hq
      · have hv' : view { s with base := t' } = t' := view_fresh (s := { s with base := t' }) hpc
        refine ⟨{ s with base := t' }, ?_, good_fresh (s := { s with base := t' }) hpc hl fun _ _ => h2.fits _, by rw [hv']; exact h2,
          .inl ?_⟩
        · unfold device at h1
          rw [hq] at h1
          simp only at h1
          obtain ⟨bufs, e1, e2⟩ := Res.bind_eq_ok.1 h1
          cases e2
          unfold next
          rw [hq]
          simp only
          rw [e1]; rfl
        · rw [hv', view_other hne]
          exact h3
    | kernel k items =>
      have hr := (good_kernel hq).1 hg
      by_cases hd : ∀ x ∈ items, s.pc x = .done
      · right
        have hput : ∀ x f, s.pc x ≠ .put2 f := by
          intro x f hx
          by_cases hm : x ∈ items
          · rw [hd x hm] at hx; cases hx
          · rw [hr.others x hm] at hx; cases hx
        have hview : view s = { s.base with queue := .kernel k [] :: q } := by
          rw [view_kernel hq, update_map_id (fill_start _ hput)]
          have : (items.filter fun x => (s.pc x).before) = [] := by
            rw [List.filter_eq_nil_iff]
            intro x hx
            rw [hd x hx]; simp [Pc.before]
          rw [this]
        rw [hview] at hi
        rcases inv_device hi 0 with ⟨h1, h2⟩ | ⟨t', h1, h2, h3⟩
        · exact absurd (h2 rfl) (by simp)
        · cases h1
          set s' : State := { base := { s.base with queue := q }, pc := fun _ => .start, log := [] } with hs'
          have hv' : view s' = s'.base := view_fresh rfl
          refine ⟨s', ?_, good_fresh rfl rfl fun _ _ => h2.fits _, by rw [hv']; exact h2, .inl ?_⟩
          · unfold next
            rw [hq]
            simp only
            rw [if_pos hd]
          · rw [hv', hview]
            exact h3
      · left
        refine ⟨?_, .inr ⟨k, items, q, rfl, by push Not at hd; exact hd⟩⟩
        unfold next
        rw [hq]
        simp only
        rw [if_neg hd]

/-- Steps are right and decrease the number of steps that are left. -/
theorem good_step {junk : Buf → Nat → Nat} {z : Now} {s : State} (hg : Good s) (hi : Inv junk z (view s)) {a : Action}
    (hp : Prompt s a) :
    step junk s a = .ok none ∨ ∃ s', step junk s a = .ok (some s') ∧ Good s' ∧ Inv junk z (view s') ∧ Less s' s := by
  cases a with
  | host => exact (host_good hg hi hp).imp (fun h => h.1) id
  | next => exact (next_good hg hi).imp (fun h => h.1) id
  | item x =>
    show item x s = _ ∨ ∃ s', item x s = _ ∧ _
    unfold item
    split
    · rename_i k items q hq
      by_cases hx : x ∈ items
      · rw [if_pos hx]
        by_cases hd : s.pc x = .done
        · left
          unfold itemStep
          rw [hd]
        · right
          obtain ⟨s', h1, h2, h3, h4⟩ := item_good hg hi hq hx hd
          exact ⟨s', h1, h2, h3, h4⟩
      · rw [if_neg hx]
        exact .inl rfl
    · exact .inl rfl

/-- There is always a next step. -/
theorem good_progress {junk : Buf → Nat → Nat} {z : Now} {s : State} (hg : Good s) (hi : Inv junk z (view s))
    (hs : s.base.todo ≠ [] ∨ s.base.queue ≠ []) : ∃ a s', Prompt s a ∧ step junk s a = .ok (some s') := by
  by_cases hq : s.base.queue = []
  · have hp : Prompt s .host := by
      intro r _ b n hm
      rw [hq] at hm; cases hm
    rcases host_good hg hi hp with ⟨_, h2⟩ | ⟨s', h1, _⟩
    · exact absurd h2 (not_or.2 ⟨hs.resolve_right (not_not.2 hq), not_not.2 hq⟩)
    · exact ⟨.host, s', hp, h1⟩
  · rcases next_good hg hi with ⟨_, h2⟩ | ⟨s', h1, _⟩
    · obtain ⟨k, items, q, h3, x, hx, hd⟩ := h2.resolve_left hq
      obtain ⟨s', h4, -⟩ := item_good hg hi h3 hx hd
      refine ⟨.item x, s', trivial, ?_⟩
      show item x s = _
      unfold item
      rw [h3]
      simp only
      rw [if_pos hx]
      exact h4
    · exact ⟨.next, s', trivial, h1⟩

theorem good_initial {junk : Buf → Nat → Nat} {z : Now} {rts : Nat → ReductionTable} {es : List Event}
    (h : Inv junk z (OpenCL.initial rts es)) : Good (initial rts es) ∧ Inv junk z (view (initial rts es)) :=
  ⟨good_fresh rfl rfl fun _ _ => h.fits _, by rw [view_fresh rfl]; exact h⟩

theorem good_reachable {junk : Buf → Nat → Nat} {z : Now} {s₀ s : State} (hg : Good s₀) (hi : Inv junk z (view s₀))
    (h : Reachable Prompt junk s₀ s) : Good s ∧ Inv junk z (view s) := by
  induction h with
  | refl => exact ⟨hg, hi⟩
  | step _ ha hs ih =>
    rcases good_step ih.1 ih.2 ha with h1 | ⟨s', h1, h2, h3, _⟩
    · rw [h1] at hs; cases hs
    · rw [h1] at hs
      cases hs
      exact ⟨h2, h3⟩

/-- There are no infinite executions. -/
theorem good_finite {junk : Buf → Nat → Nat} {z : Now} : ∀ (m n : Nat) (f : Nat → State), work (view (f 0)) = m →
    ranks (f 0) = n → Good (f 0) → Inv junk z (view (f 0)) →
    ¬ ∀ n, ∃ a, Prompt (f n) a ∧ step junk (f n) a = .ok (some (f (n + 1))) := by
  intro m
  induction m using Nat.strong_induction_on with
  | _ m ihm =>
    intro n
    induction n using Nat.strong_induction_on with
    | _ n ihn =>
      intro f hm hn hg hi hf
      obtain ⟨a, ha, hs⟩ := hf 0
      rcases good_step hg hi ha with h1 | ⟨s', h1, h2, h3, h4⟩
      · rw [h1] at hs; cases hs
      · rw [h1] at hs
        cases hs
        rcases h4 with h4 | ⟨h4, h5⟩
        · exact ihm _ (hm ▸ h4) _ (fun n => f (n + 1)) rfl rfl h2 h3 fun n => hf (n + 1)
        · exact ihn _ (hn ▸ h5) (fun n => f (n + 1)) (h4.trans hm) rfl h2 h3 fun n => hf (n + 1)

end Items
end Hycu
