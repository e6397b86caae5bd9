import Verif.Props.OpenCL
import Verif.Lemmas.OpenCLCallsSession

/-!
C79: failures of OpenCL.
-/

namespace Hycu
namespace Calls

open Function
open OpenCL (Addr Buf Kernel Cmd Event Now kernelFor Careful counts reduce)

/-- C79: whatever calls of OpenCL fail, what the host has read at any time is the beginning of what it has to read, and if
it comes to the end it has read two vectors for every count, whose sums are the result of the count. -/
theorem C79_results {rts : Nat → ReductionTable} {es : List Event} (h : Careful rts [] [] [] es)
    {junk : Buf → Nat → Nat} {s : State} (hs : Reachable Prompt junk (initial rts es) s) :
    ∃ res : List (List Nat × List Nat),
      List.Forall₂ (fun c p => reduce p.1 p.2 = Curve.countOpencl (rts c.1) c.2 (0, 0)) (counts es) res ∧
      s.base.out <+: res.flatMap (fun p => [p.1, p.2]) ∧
      (s.todo = [] → s.base.out = res.flatMap (fun p => [p.1, p.2])) := by
  obtain ⟨z, res, h1, h2, h3⟩ := OpenCL.inv_initial (junk := junk) h
  obtain ⟨B, h4, _⟩ := (inv_reachable (fun _ _ => id) (inv_initial h h1) hs).sim
  refine ⟨res, h3, ?_, fun ht => ?_⟩
  · rw [← h2]
    obtain ⟨B', _, h5⟩ := h4.sim
    exact out_prefix h5
  · rw [← h2]
    have h5 := OpenCL.inv_end h4
    simp only [ht] at h5
    exact h5 rfl

/-- C79: a checked call that fails ends the program. -/
theorem C79_checked {rts : Nat → ReductionTable} {es : List Event} (h : Careful rts [] [] [] es)
    {junk : Buf → Nat → Nat} {s : State} (hs : Reachable Prompt junk (initial rts es) s) {c : Call} {r : List Call}
    (ht : s.todo = c :: r) (hc : Checked c) : step junk s (.host true) = .abort := by
  obtain ⟨z, _, h1, _⟩ := OpenCL.inv_initial (junk := junk) h
  have hp : Prompt s (.host true) := by
    intro r' h'
    rw [ht] at h'
    cases h'
    exact absurd hc id
  rcases inv_host (inv_reachable (fun _ _ => id) (inv_initial h h1) hs) hp with ⟨h2, h3⟩ | ⟨h2, _⟩ |
      ⟨_, c', r', _, h2, _, _, _, h3, _⟩
  · exfalso
    rcases h3 with h3 | ⟨_, _, h3⟩
    · rw [ht] at h3; cases h3
    · cases h3
  · exact h2
  · rw [ht] at h2
    cases h2
    exact absurd hc (h3 rfl)

/-- C79: steps do not have undefined behaviour, unless the device runs a kernel to which a null pointer has been passed for
one of the two buffers of results.  The program is ended only by the host, if a call fails or has failed.  Until everything
is done there is a next step without a failure, unless the host finds that a call has failed. -/
theorem C79_safe {rts : Nat → ReductionTable} {es : List Event} (h : Careful rts [] [] [] es)
    {junk : Buf → Nat → Nat} {s : State} (hs : Reachable Prompt junk (initial rts es) s) :
    (∀ a, Prompt s a → (∃ o, step junk s a = .ok o) ∨
      (step junk s a = .abort ∧ ∃ fault, a = .host fault ∧ (fault = true ∨ ∃ o, s.objs o = some false)) ∨
      (step junk s a = .ub ∧ (∃ i, a = .device i) ∧ ∃ k y ys q, s.base.queue = .kernel k (y :: ys) :: q ∧
        (s.objs (.buffer k.unramified) = some false ∨ s.objs (.buffer k.ramified) = some false))) ∧
    (s.todo ≠ [] ∨ s.base.queue ≠ [] → ∃ a, Prompt s a ∧ a ≠ .host true ∧ step junk s a ≠ .ok none) := by
  obtain ⟨z, _, h1, _⟩ := OpenCL.inv_initial (junk := junk) h
  have hi := inv_reachable (fun _ _ => id) (inv_initial h h1) hs
  refine ⟨fun a ha => ?_, fun hne => ?_⟩
  · cases a with
    | host fault =>
      rcases inv_host hi ha with ⟨h2, _⟩ | ⟨h2, c, r, _, h3⟩ | ⟨_, _, _, h2, _⟩
      · exact .inl ⟨_, h2⟩
      · refine .inr (.inl ⟨h2, fault, rfl, ?_⟩)
        rcases h3 with ⟨h3, _⟩ | ⟨o, _, h3⟩
        · exact .inl h3
        · exact .inr ⟨o, h3⟩
      · exact .inl ⟨_, h2⟩
    | device i =>
      rcases inv_device hi i with ⟨h2, _⟩ | ⟨_, h2, _⟩ | ⟨h2, h3⟩
      · exact .inl ⟨_, h2⟩
      · exact .inl ⟨_, h2⟩
      · exact .inr (.inr ⟨h2, ⟨i, rfl⟩, h3⟩)
  · by_cases hq : s.base.queue = []
    · have hp : Prompt s (.host false) := by intro r _ b n; rw [hq]; simp
      refine ⟨.host false, hp, nofun, ?_⟩
      rcases inv_host hi hp with ⟨_, h2⟩ | ⟨h2, _⟩ | ⟨_, _, _, h2, _⟩
      · rcases h2 with h2 | ⟨_, h2, _⟩
        · rcases hne with h3 | h3
          · exact absurd h2 h3
          · exact absurd hq h3
        · exact absurd hq h2
      · rw [show step junk s (.host false) = _ from h2]; nofun
      · rw [show step junk s (.host false) = _ from h2]; nofun
    · refine ⟨.device 0, trivial, nofun, ?_⟩
      rcases inv_device hi 0 with ⟨_, h2⟩ | ⟨_, h2, _⟩ | ⟨h2, _⟩
      · exact absurd (h2 rfl) hq
      · rw [show step junk s (.device 0) = _ from h2]; nofun
      · rw [show step junk s (.device 0) = _ from h2]; nofun

/-- C79: as long as no call fails no object is null and nothing ends the program. -/
theorem C79_no_fault {rts : Nat → ReductionTable} {es : List Event} (h : Careful rts [] [] [] es)
    {junk : Buf → Nat → Nat} {s : State}
    (hs : Reachable (fun s a => Prompt s a ∧ a ≠ .host true) junk (initial rts es) s) :
    (∀ o, s.objs o ≠ some false) ∧ ∀ a, Prompt s a → a ≠ .host true → ∃ o, step junk s a = .ok o := by
  obtain ⟨z, _, h1, _⟩ := OpenCL.inv_initial (junk := junk) h
  have hn : ∀ o, s.objs o ≠ some false := by
    induction hs with
    | refl => exact fun o => nofun
    | @step s s' a hs ha hst ih =>
      intro o ho
      obtain ⟨_, _, h2⟩ := step_cases (inv_reachable (fun _ _ h => h.1) (inv_initial h h1) hs) ha.1 hst
      rcases h2 with ⟨_, _, h2⟩ | ⟨c, _, _, _, h2⟩
      · rw [h2] at ho; exact ih o ho
      · rcases h2 o ho with h2 | ⟨_, _, h2 | ⟨o', _, h2⟩⟩
        · exact ih o h2
        · exact ha.2 h2
        · exact ih o' h2
  have hi := inv_reachable (fun _ _ h => h.1) (inv_initial h h1) hs
  refine ⟨hn, fun a ha hne => ?_⟩
  cases a with
  | host fault =>
    rcases inv_host hi ha with ⟨h2, _⟩ | ⟨h2, c, r, _, h3⟩ | ⟨_, _, _, h2, _⟩
    · exact ⟨_, h2⟩
    · rcases h3 with ⟨h3, _⟩ | ⟨o, _, h3⟩
      · subst h3; exact absurd rfl hne
      · exact absurd h3 (hn o)
    · exact ⟨_, h2⟩
  | device i =>
    rcases inv_device hi i with ⟨h2, _⟩ | ⟨_, h2, _⟩ | ⟨_, _, _, _, _, _, h3 | h3⟩
    · exact ⟨_, h2⟩
    · exact ⟨_, h2⟩
    · exact absurd h3 (hn _)
    · exact absurd h3 (hn _)

/-- C79: constructors that fail are noticed in time, although their status is not asked for: if an object other than the
buffers for results is null no kernel is run and nothing is read any more.  A buffer that is null is never read. -/
theorem C79_noticed {rts : Nat → ReductionTable} {es : List Event} (h : Careful rts [] [] [] es)
    {junk : Buf → Nat → Nat} {s s' : State} (hs : Reachable Prompt junk (initial rts es) s)
    (hs' : Reachable Prompt junk s s') {o : Obj} (ho : s.objs o = some false) :
    (¬ Result o → s'.base.out = s.base.out ∧ (∀ t d n, Call.run t d n ∈ s.todo → Call.run t d n ∈ s'.todo) ∧
      ∀ b n, Call.read b n ∈ s.todo → Call.read b n ∈ s'.todo) ∧
    ∀ b n, o = .buffer b → Call.read b n ∈ s.todo → Call.read b n ∈ s'.todo := by
  obtain ⟨z, _, h1, _⟩ := OpenCL.inv_initial (junk := junk) h
  have hi := inv_reachable (fun _ _ => id) (inv_initial h h1) hs
  have key : s'.objs o = some false ∧ Inv junk z rts s' ∧
      ((¬ Result o → s'.base.out = s.base.out ∧ (∀ t d n, Call.run t d n ∈ s.todo → Call.run t d n ∈ s'.todo) ∧
        ∀ b n, Call.read b n ∈ s.todo → Call.read b n ∈ s'.todo) ∧
      ∀ b n, o = .buffer b → Call.read b n ∈ s.todo → Call.read b n ∈ s'.todo) := by
    induction hs' with
    | refl => exact ⟨ho, hi, fun _ => ⟨rfl, fun _ _ _ => id, fun _ _ => id⟩, fun _ _ _ => id⟩
    | @step s1 s2 a _ ha hst ih =>
      obtain ⟨i1, i2, i3, i4⟩ := ih
      obtain ⟨h2, h3, h4⟩ := step_cases i2 ha hst
      refine ⟨h3 _ _ i1, h2, ?_⟩
      rcases h4 with ⟨h4, h5, _⟩ | ⟨c, h4, h5, h6, _⟩
      · rw [h4, h5]; exact ⟨i3, i4⟩
      · rw [h4] at i3 i4
        have hu := h5 o i1
        refine ⟨fun hr => ?_, ?_⟩
        · obtain ⟨j1, j2, j3⟩ := i3 hr
          have hw : ¬ Work c := by
            rcases i2.guard o i1 with h7 | h7
            · exact absurd h7 hr
            · rw [h4] at h7
              exact (h7.resolve_left hu).1
          refine ⟨(h6 ?_).trans j1, fun t d n hm => ?_, fun b n hm => ?_⟩
          · rintro ⟨b, n, rfl⟩; exact hw trivial
          · exact (List.mem_cons.1 (j2 t d n hm)).resolve_left (by rintro rfl; exact hw trivial)
          · exact (List.mem_cons.1 (j3 b n hm)).resolve_left (by rintro rfl; exact hw trivial)
        · rintro b n rfl hm
          exact (List.mem_cons.1 (i4 b n rfl hm)).resolve_left (by rintro rfl; exact hu (.inr rfl))
  exact key.2.2

/-- C79: the exception exists: every careful session with a count has an execution in which the only call that fails is the
constructor of a buffer for results, and the device runs a kernel that writes to a null pointer. -/
theorem C79_null {rts : Nat → ReductionTable} {es : List Event} (h : Careful rts [] [] [] es) (hc : counts es ≠ [])
    (hq : ∀ t, 0 < (rts t).primePowerPred) (junk : Buf → Nat → Nat) :
    ∃ t s, Reachable (fun s a => Prompt s a ∧ FailsAt (.buffer (.unramified t)) s a) junk (initial rts es) s ∧
      step junk s (.device 0) = .ub := by
  obtain ⟨z, _, h1, _⟩ := OpenCL.inv_initial (junk := junk) h
  have hi := inv_initial h h1
  obtain ⟨pre, t, cs, post, rfl, h2⟩ := OpenCL.first_count hc
  obtain ⟨as, h3, h4, h5⟩ := calls_pre (rts := rts) (t := t) (es := .count t cs :: post) (programs := []) (kernels := []) h2
  have ht := (table_mem h).resolve_left (by simp)
  obtain ⟨n, h6⟩ := h5 ht
  obtain ⟨bs, r, h7, h8, h9⟩ : ∃ bs r, calls rts [] [] (.count t cs :: post) = bs ++ r ∧
      (∀ c ∈ bs, (∀ b' n, c ≠ .read b' n) ∧ c ≠ .free .arg ∧ ¬ Uses c (.buffer (.unramified t))) ∧
      Call.run t (cs.length - 1) (rts t).primePowerPred ∈ bs := by
    refine ⟨newKernel rts [] t (cs.length - 1) ++ [.alloc .arg cs,
      .write (.coeffs t (cs.length - 1)) .arg (cs.length - 1 + 1),
      .set t (cs.length - 1) 0 (.buffer (.coeffs t (cs.length - 1))), .run t (cs.length - 1) (rts t).primePowerPred],
      _, rfl, ?_, by simp⟩
    intro c hc
    simp [newKernel] at hc
    rcases hc with h | h | h | h | h | h | h | h | h | h | h | h | h <;> subst h <;> simp [Uses]
  obtain ⟨s, g1, g2, g3, g4, _, g6⟩ := hosts_run (b := .unramified t) hi (as := interface ++ (as ++ bs)) (r := r)
    (by
      show interface ++ calls rts [] [] _ = _
      rw [h3, h7, List.append_assoc, List.append_assoc])
    (by
      intro c hc
      rcases List.mem_append.1 hc with hc | hc
      · simp [interface] at hc
        rcases hc with h | h | h | h <;> subst h <;> simp [Uses]
      · rcases List.mem_append.1 hc with hc | hc
        · exact h4 c hc
        · exact h8 c hc)
    (fun o ho => by cases ho)
  have hnull := g4 (.inr ⟨n, by simp [h6]⟩)
  have hm := g6 t _ _ (by simp [h9] : Call.run t (cs.length - 1) (rts t).primePowerPred ∈ interface ++ (as ++ bs))
  obtain ⟨m, hm2⟩ : ∃ m, (rts t).primePowerPred = m + 1 := ⟨_, (Nat.succ_pred_eq_of_pos (hq t)).symm⟩
  rw [hm2, List.range_succ_eq_map] at hm
  obtain ⟨s', e1, e2⟩ := device_runs (o := .buffer (.unramified t)) _ le_rfl g2 hm hnull
  exact ⟨t, s', .trans g1 e1, e2⟩

/-- Hypotheses of the theorems: a careful session with two counts. -/
example : ∃ rt, ReductionTable.make rep7.coeff (fun _ => (3 : ZMod 7)) 7 1 true 1 = .ok rt ∧
    Careful (fun _ => rt) [] [] [] [.table 0 false, .count 0 [6, 0, 6, 0], .count 0 [3, 0], .drop 0] ∧
    counts [.table 0 false, .count 0 [6, 0, 6, 0], .count 0 [3, 0], .drop 0] ≠ [] ∧ 0 < rt.primePowerPred := by
  refine ⟨_, rfl, ?_, by decide, by decide⟩
  exact ⟨rfl, by decide, by decide, by decide, ⟨_, rfl⟩, by decide, by decide, ⟨_, rfl⟩, by decide, by decide, trivial⟩

/-- Steps of the host, with the calls that fail. -/
def hosts (junk : Buf → Nat → Nat) : List Bool → State → Res State
  | [], s => .ok s
  | f :: fs, s =>
    match host junk f s with
    | .ok (some s') => hosts junk fs s'
    | .ok none => .diverge
    | .abort => .abort
    | .ub => .ub
    | .diverge => .diverge

/-- Test: if the context cannot be made, building the first program ends the program; the queue is null as well. -/
example (rts : Nat → ReductionTable) (es : List Event) (junk : Buf → Nat → Nat) :
    (∃ s, hosts junk [true, false, false] (initial rts es) = .ok s ∧ s.objs .queue = some false) ∧
    hosts junk [true, false, false, false] (initial rts es) = .abort := by
  refine ⟨⟨_, rfl, rfl⟩, rfl⟩

/-- Test: if the queue cannot be made, this is found when the first buffer is written. -/
example (rts : Nat → ReductionTable) (es : List Event) (junk : Buf → Nat → Nat) :
    hosts junk ([false, true] ++ List.replicate 9 false) (initial rts (.table 0 false :: es)) = .abort := rfl

end Calls
end Hycu
