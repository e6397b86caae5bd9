import Verif.Lemmas.OpenCLCalls

/-!
The calls of careful sessions are in order.
-/

namespace Hycu
namespace Calls

open Function
open OpenCL (Addr Buf Kernel Cmd Event Heap Bufs Op Now kernelFor Careful counts)

/-- The objects that have been made, by tables, degrees and kernels. -/
def madeOf (used programs : List Nat) (kernels : List (Nat × Nat)) : Obj → Prop
  | .context => True
  | .queue => True
  | .reduction => True
  | .program d => d ∈ programs
  | .kernel t d => (t, d) ∈ kernels
  | .buffer (.ert t) => t ∈ used
  | .buffer (.inc t) => t ∈ used
  | .buffer (.unramified t) => t ∈ used
  | .buffer (.ramified t) => t ∈ used
  | .buffer (.coeffs t d) => (t, d) ∈ kernels

theorem Fine.congr {rts : Nat → ReductionTable} {made made' : Obj → Prop} {args : Args} {r : List Call}
    (h : Fine rts made' args r) (hm : ∀ x, made x ↔ made' x) : Fine rts made args r := by
  obtain rfl : made = made' := funext fun x => propext (hm x)
  exact h

theorem set_same {args : Args} {t d i : Nat} {v : Arg} :
    update args t (update (args t) d (update (args t d) i (some v))) t d = update (args t d) i (some v) := by
  rw [update_self, update_self]

theorem set_other {args : Args} {t d t' d' : Nat} (h : (t', d') ≠ (t, d)) (f : Nat → Option Arg) :
    update args t (update (args t) d f) t' d' = args t' d' := by
  by_cases ht : t' = t
  · subst ht
    rw [update_self, update_of_ne (fun hd => h (by rw [hd]))]
  · rw [update_of_ne ht]

/-- The arguments that are set when a kernel is made. -/
def Ready (rts : Nat → ReductionTable) (args : Args) (t d : Nat) : Prop :=
  args t d 1 = some (.value (rts t).primePowerPred) ∧ args t d 2 = some (.buffer (.ert t)) ∧
  args t d 3 = some (.buffer (.inc t)) ∧ args t d 4 = some (.buffer (.unramified t)) ∧
  args t d 5 = some (.buffer (.ramified t))

theorem Ready.congr {rts : Nat → ReductionTable} {args args' : Args} {t d : Nat} (h : Ready rts args t d)
    (ha : args' t d = args t d) : Ready rts args' t d := by
  unfold Ready at *
  rw [ha]
  exact h

/-- The calls after the kernel has been made. -/
theorem fine_count {rts : Nat → ReductionTable} {made : Obj → Prop} {args : Args} {t d : Nat} {cs : List Nat}
    {r : List Call} (hq : made .queue) (hk : made (.kernel t d)) (hc : made (.buffer (.coeffs t d)))
    (he : made (.buffer (.ert t))) (hi : made (.buffer (.inc t))) (hu : made (.buffer (.unramified t)))
    (hr : made (.buffer (.ramified t))) (ha : Ready rts args t d)
    (h : ∀ args', (∀ t' d', (t', d') ≠ (t, d) → args' t' d' = args t' d') → Ready rts args' t d → Fine rts made args' r) :
    Fine rts made args ([.alloc .arg cs, .write (.coeffs t d) .arg (d + 1), .set t d 0 (.buffer (.coeffs t d)),
      .run t d (rts t).primePowerPred, .free .arg, .read (.unramified t) (rts t).primePowerPred,
      .read (.ramified t) (rts t).primePowerPred] ++ r) := by
  obtain ⟨a1, a2, a3, a4, a5⟩ := ha
  have hready : Ready rts (update args t (update (args t) d (update (args t d) 0 (some (.buffer (.coeffs t d)))))) t d := by
    unfold Ready
    rw [set_same]
    simp [a1, a2, a3, a4, a5]
  refine ⟨hq, hc, hk, fun b hb => ?_, hq, hk, ?_, ⟨hc, he, hi, hu, hr⟩, hq, hu, hq, hr, h _ ?_ hready⟩
  · cases hb; exact hc
  · unfold kernelOf
    rw [set_same]
    simp [a1, a2, a3, a4, a5, kernelFor]
  · intro t' d' hne
    exact set_other hne _

theorem ready_new {rts : Nat → ReductionTable} {made : Obj → Prop} {args : Args} {t d : Nat} {r : List Call}
    (hctx : made .context) (hp : made (.program d)) (hk : ¬ made (.kernel t d)) (hc : ¬ made (.buffer (.coeffs t d)))
    (he : made (.buffer (.ert t))) (hi : made (.buffer (.inc t))) (hu : made (.buffer (.unramified t)))
    (hr : made (.buffer (.ramified t)))
    (hg : Guard (.buffer (.coeffs t d)) r)
    (h : ∀ args', (∀ t' d', (t', d') ≠ (t, d) → args' t' d' = args t' d') → Ready rts args' t d →
      Fine rts (fun x => x = .buffer (.coeffs t d) ∨ x = .kernel t d ∨ made x) args' r) :
    Fine rts made args ([.make (.kernel t d) 0, .make (.buffer (.coeffs t d)) (d + 1),
      .set t d 1 (.value (rts t).primePowerPred), .set t d 2 (.buffer (.ert t)), .set t d 3 (.buffer (.inc t)),
      .set t d 4 (.buffer (.unramified t)), .set t d 5 (.buffer (.ramified t))] ++ r) := by
  refine ⟨fun o' ho => ?_, hk, .inr (.inr ⟨id, .inl rfl⟩), fun o' ho => ?_, ?_, .inr ?_, .inr (.inl rfl), nofun,
    .inr (.inl rfl), ?_, .inr (.inl rfl), ?_, .inr (.inl rfl), ?_, .inr (.inl rfl), ?_, h _ ?_ ?_⟩
  · cases ho; exact hp
  · cases ho; exact .inr hctx
  · rintro (h' | h')
    · cases h'
    · exact hc h'
  · exact .inr ⟨id, .inr ⟨id, .inr ⟨id, .inr ⟨id, .inr ⟨id, hg⟩⟩⟩⟩⟩
  · intro b hb; cases hb; exact .inr (.inr he)
  · intro b hb; cases hb; exact .inr (.inr hi)
  · intro b hb; cases hb; exact .inr (.inr hu)
  · intro b hb; cases hb; exact .inr (.inr hr)
  · intro t' d' hne
    rw [set_other hne, set_other hne, set_other hne, set_other hne, set_other hne]
    show update args t (update (args t) d _) t' d' = _
    exact set_other hne _
  · unfold Ready
    rw [set_same, set_same, set_same, set_same, set_same]
    simp

theorem guard_coeffs {rts : Nat → ReductionTable} {t d : Nat} {cs : List Nat} {r : List Call} :
    Guard (.buffer (.coeffs t d)) ([.alloc .arg cs, .write (.coeffs t d) .arg (d + 1), .set t d 0 (.buffer (.coeffs t d)),
      .run t d (rts t).primePowerPred, .free .arg, .read (.unramified t) (rts t).primePowerPred,
      .read (.ramified t) (rts t).primePowerPred] ++ r) := .inr ⟨id, .inl (.inr rfl)⟩

theorem fine_calls {rts : Nat → ReductionTable} : ∀ {es : List Event} {used live fresh programs : List Nat}
    {kernels : List (Nat × Nat)} {args : Args}, Careful rts used live fresh es → (∀ t ∈ live, t ∈ used) →
    (∀ t d, (t, d) ∈ kernels → d ∈ programs ∧ Ready rts args t d) →
    Fine rts (madeOf used programs kernels) args (calls rts programs kernels es)
  | [], _, _, _, _, _, _, _, _, _ => trivial
  | .table t moved :: es, used, live, fresh, programs, kernels, args, h, hl, ha => by
    obtain ⟨rfl, ht, h⟩ := h
    have ih := fine_calls (programs := programs) (kernels := kernels) (args := args) h (by
      intro t' ht'
      rcases List.mem_cons.1 ht' with rfl | ht'
      · exact List.mem_cons_self
      · exact List.mem_cons_of_mem _ (hl t' ht')) ha
    refine ⟨fun o' ho => ?_, ht, .inr ?_, fun o' ho => ?_, ?_, .inr ?_, fun o' ho => ?_, ?_, .inl trivial,
      fun o' ho => ?_, ?_, .inl trivial, ?_, ?_, ?_, ?_, Fine.congr ih fun x => ?_⟩
    · cases ho; trivial
    · exact .inr ⟨id, .inr ⟨id, .inr ⟨id, .inl (.inr rfl)⟩⟩⟩
    · cases ho; exact .inr trivial
    · simpa [madeOf] using ht
    · exact .inr ⟨id, .inr ⟨id, .inr ⟨id, .inl (.inr rfl)⟩⟩⟩
    · cases ho; exact .inr (.inr trivial)
    · simpa [madeOf] using ht
    · cases ho; exact .inr (.inr (.inr trivial))
    · simpa [madeOf] using ht
    · exact .inr (.inr (.inr (.inr trivial)))
    · exact .inr (.inr (.inr (.inl rfl)))
    · exact .inr (.inr (.inr (.inr trivial)))
    · exact .inr (.inr (.inl rfl))
    · rcases x with _ | _ | _ | d | ⟨t', d⟩ | (t' | t' | t' | t' | ⟨t', d⟩) <;> simp [madeOf]
  | .count t cs :: es, used, live, fresh, programs, kernels, args, h, hl, ha => by
    obtain ⟨ht, _, _, h⟩ := h
    have htu := hl t ht
    generalize hd : cs.length - 1 = d
    have ih : ∀ args', (∀ t' d', (t', d') ≠ (t, d) → args' t' d' = args t' d') → Ready rts args' t d →
        Fine rts (madeOf used (d :: programs) ((t, d) :: kernels)) args'
          (calls rts (d :: programs) ((t, d) :: kernels) es) := by
      intro args' h1 h2
      refine fine_calls h hl fun t' d' hm => ?_
      by_cases he : (t', d') = (t, d)
      · cases he; exact ⟨List.mem_cons_self, h2⟩
      · rcases List.mem_cons.1 hm with hm | hm
        · exact absurd hm he
        · exact ⟨List.mem_cons_of_mem _ (ha t' d' hm).1, (ha t' d' hm).2.congr (h1 t' d' he)⟩
    have heq : calls rts programs kernels (.count t cs :: es) =
        (if (t, d) ∈ kernels then [] else newKernel rts programs t d) ++
        ([.alloc .arg cs, .write (.coeffs t d) .arg (d + 1), .set t d 0 (.buffer (.coeffs t d)),
          .run t d (rts t).primePowerPred, .free .arg, .read (.unramified t) (rts t).primePowerPred,
          .read (.ramified t) (rts t).primePowerPred] ++ calls rts (d :: programs) ((t, d) :: kernels) es) := by
      subst hd
      simp only [calls, eventCalls, eventPrograms, Event.kernels, List.append_assoc]
    rw [heq]
    by_cases hk : (t, d) ∈ kernels
    · rw [if_pos hk, List.nil_append]
      obtain ⟨hp, hready⟩ := ha t d hk
      refine fine_count trivial hk hk htu htu htu htu hready fun args' h3 h4 => ?_
      refine Fine.congr (ih args' h3 h4) fun x => ?_
      rcases x with _ | _ | _ | d' | ⟨t', d'⟩ | (t' | t' | t' | t' | ⟨t', d'⟩) <;> simp [madeOf]
      · rintro rfl; exact hp
      · rintro rfl rfl; exact hk
      · rintro rfl rfl; exact hk
    · rw [if_neg hk]
      unfold newKernel
      by_cases hp : d ∈ programs
      · rw [if_pos hp, List.nil_append]
        refine ready_new trivial hp hk hk htu htu htu htu (guard_coeffs (rts := rts)) fun args' h1 h2 => ?_
        refine fine_count (.inr (.inr trivial)) (.inr (.inl rfl)) (.inl rfl) (.inr (.inr htu)) (.inr (.inr htu))
          (.inr (.inr htu)) (.inr (.inr htu)) h2 fun args'' h3 h4 => ?_
        refine Fine.congr (ih args'' (fun t' d' hne => (h3 t' d' hne).trans (h1 t' d' hne)) h4) fun x => ?_
        rcases x with _ | _ | _ | d' | ⟨t', d'⟩ | (t' | t' | t' | t' | ⟨t', d'⟩) <;> simp [madeOf]
        rintro rfl; exact hp
      · rw [if_neg hp, List.append_assoc]
        refine ⟨fun o' ho => ?_, hp, .inr (.inl (.inl rfl)), .inl rfl, ?_⟩
        · cases ho; trivial
        refine ready_new (.inr trivial) (.inl rfl) (by simpa [madeOf] using hk) (by simpa [madeOf] using hk) (.inr htu) (.inr htu) (.inr htu)
          (.inr htu) (guard_coeffs (rts := rts)) fun args' h1 h2 => ?_
        refine fine_count (.inr (.inr (.inr trivial))) (.inr (.inl rfl)) (.inl rfl) (.inr (.inr (.inr htu)))
          (.inr (.inr (.inr htu))) (.inr (.inr (.inr htu))) (.inr (.inr (.inr htu))) h2 fun args'' h3 h4 => ?_
        refine Fine.congr (ih args'' (fun t' d' hne => (h3 t' d' hne).trans (h1 t' d' hne)) h4) fun x => ?_
        rcases x with _ | _ | _ | d' | ⟨t', d'⟩ | (t' | t' | t' | t' | ⟨t', d'⟩) <;> simp [madeOf]
  | .drop t :: es, used, live, fresh, programs, kernels, args, h, hl, ha => by
    obtain ⟨ht, _, h⟩ := h
    exact fine_calls (es := es) h (fun t' ht' => hl t' (List.mem_filter.1 ht').1) ha

theorem abs_event {rts : Nat → ReductionTable} {programs : List Nat} {kernels : List (Nat × Nat)} (e : Event) :
    (eventCalls rts programs kernels e).flatMap (abs rts) = e.ops rts kernels := by
  cases e with
  | table t moved => cases moved <;> rfl
  | count t cs =>
    simp only [eventCalls, Event.ops, newKernel]
    split
    · rfl
    · split <;> rfl
  | drop t => rfl

theorem abs_calls {rts : Nat → ReductionTable} : ∀ {es : List Event} {programs : List Nat} {kernels : List (Nat × Nat)},
    (calls rts programs kernels es).flatMap (abs rts) = OpenCL.ops rts kernels es
  | [], _, _ => rfl
  | e :: es, programs, kernels => by
    rw [calls, List.flatMap_append, abs_event, abs_calls]
    rfl

theorem guard_queue {rts : Nat → ReductionTable} {es : List Event} {programs : List Nat} {kernels : List (Nat × Nat)}
    {used fresh : List Nat} (h : Careful rts used [] fresh es) : Guard .queue (calls rts programs kernels es) := by
  cases es with
  | nil => trivial
  | cons e es =>
    cases e with
    | table t moved =>
      obtain ⟨rfl, _⟩ := h
      exact .inr ⟨id, .inr ⟨id, .inr ⟨id, .inr ⟨id, .inr ⟨id, .inr ⟨id, .inl (.inl rfl)⟩⟩⟩⟩⟩⟩
    | count t cs => exact absurd h.1 (by simp)
    | drop t => exact absurd h.1 (by simp)

theorem inv_initial {junk : Buf → Nat → Nat} {z : Now} {rts : Nat → ReductionTable} {es : List Event}
    (h : Careful rts [] [] [] es) (hz : OpenCL.Inv junk z (OpenCL.initial rts es)) : Inv junk z rts (initial rts es) := by
  have hf := fine_calls (programs := []) (kernels := []) (args := fun _ _ _ => none) h (by simp) (by simp)
  refine ⟨⟨fun _ => none, ?_, fun b => by simp [initial]⟩, ?_, nofun, nofun, nofun, nofun, nofun⟩
  · have : (initial rts es).todo.flatMap (abs rts) = OpenCL.ops rts [] es := by
      rw [← abs_calls (programs := [])]
      rfl
    rw [this]
    exact hz
  · refine ⟨nofun, by simp [initial], .inr ?_, fun o' ho => ?_, by simp [initial], .inr ?_, fun o' ho => ?_,
      by simp [initial], .inr ?_, .inl rfl, Fine.congr hf fun x => ?_⟩
    · exact .inr ⟨id, .inr ⟨id, .inl (.inr ⟨rfl, rfl⟩)⟩⟩
    · cases ho; exact .inl rfl
    · exact .inr ⟨id, .inr ⟨id, guard_queue h⟩⟩
    · cases ho; exact .inr (.inl rfl)
    · exact .inl (.inl rfl)
    · rcases x with _ | _ | _ | d' | ⟨t', d'⟩ | (t' | t' | t' | t' | ⟨t', d'⟩) <;> simp [madeOf, initial]

/-- Steps of the machine. -/
theorem inv_reachable {junk : Buf → Nat → Nat} {z : Now} {rts : Nat → ReductionTable} {P : State → Action → Prop}
    (hP : ∀ s a, P s a → Prompt s a) {s₀ s : State} (h₀ : Inv junk z rts s₀) (h : Reachable P junk s₀ s) :
    Inv junk z rts s := by
  induction h with
  | refl => exact h₀
  | @step s s' a _ ha hs ih =>
    cases a with
    | host fault =>
      rcases inv_host ih (hP _ _ ha) with ⟨h1, _⟩ | ⟨h1, _⟩ | ⟨s2, _, _, h1, _, _, h2, _⟩
      · rw [show step junk s (.host fault) = _ from h1] at hs; cases hs
      · rw [show step junk s (.host fault) = _ from h1] at hs; cases hs
      · rw [show step junk s (.host fault) = _ from h1] at hs; cases hs; exact h2
    | device i =>
      rcases inv_device ih i with ⟨h1, _⟩ | ⟨s2, h1, h2, _⟩ | ⟨h1, _⟩
      · rw [show step junk s (.device i) = _ from h1] at hs; cases hs
      · rw [show step junk s (.device i) = _ from h1] at hs; cases hs; exact h2
      · rw [show step junk s (.device i) = _ from h1] at hs; cases hs

theorem out_prefix {junk : Buf → Nat → Nat} {z : Now} : ∀ {r : List Op} {n : Now}, OpenCL.doOps junk n r = .ok z →
    n.out <+: z.out
  | [], n, h => by cases h; exact List.prefix_refl _
  | op :: r, n, h => by
    rw [OpenCL.doOps_cons] at h
    obtain ⟨n', h1, h2⟩ := Res.bind_eq_ok.1 h
    refine List.IsPrefix.trans ?_ (out_prefix h2)
    cases op with
    | alloc a v => simp only [OpenCL.doOp] at h1; split at h1 <;> cases h1; exact List.prefix_refl _
    | free a => simp only [OpenCL.doOp] at h1; split at h1 <;> cases h1; exact List.prefix_refl _
    | create b m => simp only [OpenCL.doOp] at h1; split at h1 <;> cases h1; exact List.prefix_refl _
    | enqueue c =>
      obtain ⟨_, _, h3⟩ := Res.bind_eq_ok.1 h1
      obtain ⟨_, _, h4⟩ := Res.bind_eq_ok.1 h3
      cases h4
      exact List.prefix_refl _
    | read b m =>
      obtain ⟨_, _, h3⟩ := Res.bind_eq_ok.1 h1
      split at h3 <;> cases h3
      exact List.prefix_append _ _

theorem Reachable.trans {P : State → Action → Prop} {junk : Buf → Nat → Nat} {s₀ s₁ s₂ : State}
    (h : Reachable P junk s₀ s₁) (h' : Reachable P junk s₁ s₂) : Reachable P junk s₀ s₂ := by
  induction h' with
  | refl => exact h
  | step _ ha hs ih => exact .step ih ha hs

/-- A step that has been made. -/
theorem step_cases {junk : Buf → Nat → Nat} {z : Now} {rts : Nat → ReductionTable} {s s' : State} {a : Action}
    (h : Inv junk z rts s) (ha : Prompt s a) (hs : step junk s a = .ok (some s')) :
    Inv junk z rts s' ∧ (∀ o v, s.objs o = some v → s'.objs o = some v) ∧
    ((s'.todo = s.todo ∧ s'.base.out = s.base.out ∧ s'.objs = s.objs) ∨
      ∃ c, s.todo = c :: s'.todo ∧ (∀ o, s.objs o = some false → ¬ Uses c o) ∧
        ((¬ ∃ b n, c = .read b n) → s'.base.out = s.base.out) ∧
        (∀ o, s'.objs o = some false → s.objs o = some false ∨
          ∃ n, c = .make o n ∧ (a = .host true ∨ ∃ o', o.needs = some o' ∧ s.objs o' = some false))) := by
  cases a with
  | host fault =>
    rcases inv_host h ha with ⟨h1, _⟩ | ⟨h1, _⟩ | ⟨s2, c, r, h1, h2, h3, h4, h5, _, h6, h7, h8, _⟩
    · rw [show step junk s (.host fault) = _ from h1] at hs; cases hs
    · rw [show step junk s (.host fault) = _ from h1] at hs; cases hs
    · rw [show step junk s (.host fault) = _ from h1] at hs; cases hs
      refine ⟨h4, h6, .inr ⟨c, by rw [h3]; exact h2, h5, h8, fun o ho => ?_⟩⟩
      rcases h7 o ho with h7 | ⟨n, h7, h9⟩
      · exact .inl h7
      · exact .inr ⟨n, h7, h9.imp (fun h => by rw [h]) id⟩
  | device i =>
    rcases inv_device h i with ⟨h1, _⟩ | ⟨s2, h1, h2, h3, h4, h5, _⟩ | ⟨h1, _⟩
    · rw [show step junk s (.device i) = _ from h1] at hs; cases hs
    · rw [show step junk s (.device i) = _ from h1] at hs; cases hs
      exact ⟨h2, fun o v ho => by rw [h4]; exact ho, .inl ⟨h3, h5, h4⟩⟩
    · rw [show step junk s (.device i) = _ from h1] at hs; cases hs

theorem needs_buffer {o : Obj} {b : Buf} : o.needs ≠ some (.buffer b) := by
  cases o <;> simp [Obj.needs]

/-- The host does several calls while the device does nothing; the constructor of one buffer fails. -/
theorem hosts_run {junk : Buf → Nat → Nat} {z : Now} {rts : Nat → ReductionTable} {b : Buf} :
    ∀ {as r : List Call} {s : State}, Inv junk z rts s → s.todo = as ++ r →
    (∀ c ∈ as, (∀ b' n, c ≠ .read b' n) ∧ c ≠ .free .arg ∧ ¬ Uses c (.buffer b)) →
    (∀ o, s.objs o = some false → o = .buffer b) →
    ∃ s', Reachable (fun s a => Prompt s a ∧ FailsAt (.buffer b) s a) junk s s' ∧ Inv junk z rts s' ∧ s'.todo = r ∧
      ((s.objs (.buffer b) = some false ∨ ∃ n, Call.make (.buffer b) n ∈ as) → s'.objs (.buffer b) = some false) ∧
      (∀ c ∈ s.base.queue, c ∈ s'.base.queue) ∧
      ∀ t d n, Call.run t d n ∈ as → Cmd.kernel (kernelFor (rts t) t d) (List.range n) ∈ s'.base.queue
  | [], r, s, h, ht, _, _ => ⟨s, .refl, h, ht, by simp, fun _ => id, by simp⟩
  | c :: as, r, s, h, ht, hq, hn => by
    obtain ⟨q1, q2, q3⟩ := hq c List.mem_cons_self
    have hp : ∀ fault, Prompt s (.host fault) := by
      intro fault r' h' _ _ _
      rw [ht] at h'
      exact q2 (List.cons.inj h').1
    obtain ⟨fault, hf1, hf2⟩ : ∃ fault : Bool, (fault = true → ∃ n, c = .make (.buffer b) n) ∧
        ((∃ n, c = .make (.buffer b) n) → fault = true) := by
      by_cases hc : ∃ n, c = .make (.buffer b) n
      · exact ⟨true, fun _ => hc, fun _ => rfl⟩
      · exact ⟨false, nofun, fun h => absurd h hc⟩
    rcases inv_host h (hp fault) with ⟨_, h1⟩ | ⟨_, c', r', h1, h2⟩ |
        ⟨s1, c', r', h1, h2, h3, h4, _, _, h6, h7, _, h8, q, h9, h10⟩
    · exfalso
      rcases h1 with h1 | ⟨⟨b', n, r', h1⟩, _⟩
      · rw [ht] at h1; cases h1
      · rw [ht] at h1; exact q1 b' n (List.cons.inj h1).1
    · exfalso
      rw [ht] at h1
      obtain ⟨rfl, _⟩ := List.cons.inj h1
      rcases h2 with ⟨h2, h3⟩ | ⟨o, h2, h3⟩
      · obtain ⟨n, rfl⟩ := hf1 h2
        exact h3
      · rw [hn o h3] at h2
        exact q3 h2
    · rw [ht] at h2
      obtain ⟨rfl, h2r⟩ := List.cons.inj h2
      have hn1 : ∀ o, s1.objs o = some false → o = .buffer b := by
        intro o ho
        rcases h7 o ho with h7 | ⟨n, rfl, h7 | ⟨o', h11, h12⟩⟩
        · exact hn o h7
        · obtain ⟨n', h11⟩ := hf1 h7
          cases h11; rfl
        · rw [hn o' h12] at h11
          exact absurd h11 needs_buffer
      obtain ⟨s2, g1, g2, g3, g4, g5, g6⟩ := hosts_run h4 (h3.trans h2r.symm)
        (fun c hc => hq c (List.mem_cons_of_mem _ hc)) hn1
      refine ⟨s2, Reachable.trans (.step (a := .host fault) .refl ⟨hp fault, ?_⟩ h1) g1, g2, g3, ?_, ?_, ?_⟩
      · cases fault
        · exact trivial
        · obtain ⟨n, rfl⟩ := hf1 rfl
          exact ⟨n, _, ht⟩
      · rintro (h11 | ⟨n, h11⟩)
        · exact g4 (.inl (h6 _ _ h11))
        · rcases List.mem_cons.1 h11 with h11 | h11
          · exact g4 (.inl (h8 (hf2 ⟨n, h11.symm⟩) _ _ h11.symm))
          · exact g4 (.inr ⟨n, h11⟩)
      · intro c hc
        exact g5 c (by rw [h9]; exact List.mem_append_left _ hc)
      · intro t d n hm
        rcases List.mem_cons.1 hm with hm | hm
        · refine g5 _ ?_
          rw [h9, h10 t d n hm.symm]
          simp
        · exact g6 t d n hm

/-- The device works until it comes to a kernel that writes to a null pointer. -/
theorem device_runs {junk : Buf → Nat → Nat} {z : Now} {rts : Nat → ReductionTable} {o : Obj} :
    ∀ (w : Nat) {s : State}, load s ≤ w → Inv junk z rts s → ∀ {k : Kernel} {y : Nat} {ys : List Nat},
    Cmd.kernel k (y :: ys) ∈ s.base.queue → s.objs (.buffer k.unramified) = some false →
    ∃ s', Reachable (fun s a => Prompt s a ∧ FailsAt o s a) junk s s' ∧ step junk s' (.device 0) = .ub
  | w, s, hw, h, k, y, ys, hm, hk => by
    rcases inv_device h 0 with ⟨_, h1⟩ | ⟨s1, h1, h2, h3, h4, h5, h6⟩ | ⟨h1, _⟩
    · rw [h1 rfl] at hm; cases hm
    · cases w with
      | zero => omega
      | succ w =>
        have hm1 : Cmd.kernel k (y :: ys) ∈ s1.base.queue := by
          simp only [device, OpenCL.device] at h1
          rcases hq : s.base.queue with _ | ⟨c, q⟩
          · rw [hq] at hm; cases hm
          · rw [hq] at hm h1
            rcases List.mem_cons.1 hm with rfl | hm'
            · exfalso
              simp only [List.getElem?_cons_zero] at h1
              obtain ⟨_, h7, _⟩ := Res.bind_eq_ok.1 h1
              obtain ⟨_, h8, _⟩ := Res.bind_eq_ok.1 h7
              obtain ⟨_, _, hb⟩ := h.sim
              obtain ⟨t, d, hkk⟩ := h.sep k _ (hq ▸ List.mem_cons_self)
              obtain ⟨_, u, _, _, e2, _⟩ := (OpenCL.item_eq_ok (hkk ▸ OpenCL.kernelFor_sep _ _ _)).1 h8
              rw [hb, hk] at e2
              simp at e2
            · cases c with
              | write b a n =>
                obtain ⟨_, h7, h8⟩ := Res.bind_eq_ok.1 h1
                obtain ⟨_, _, h9⟩ := Res.bind_eq_ok.1 h7
                cases h9
                cases h8
                exact hm'
              | kernel k' items =>
                cases items with
                | nil =>
                  cases h1
                  exact hm'
                | cons y' ys' =>
                  obtain ⟨_, h7, h8⟩ := Res.bind_eq_ok.1 h1
                  obtain ⟨_, _, h9⟩ := Res.bind_eq_ok.1 h7
                  cases h9
                  cases h8
                  exact List.mem_cons_of_mem _ hm'
        obtain ⟨s', g1, g2⟩ := device_runs w (by omega) h2 hm1 (by rw [h4]; exact hk)
        exact ⟨s', Reachable.trans (.step (a := .device 0) .refl ⟨trivial, trivial⟩ h1) g1, g2⟩
    · exact ⟨s, .refl, h1⟩

theorem table_mem {rts : Nat → ReductionTable} {t : Nat} {cs : List Nat} {post : List Event} :
    ∀ {pre : List Event} {used live fresh : List Nat}, Careful rts used live fresh (pre ++ .count t cs :: post) →
    t ∈ live ∨ Event.table t false ∈ pre
  | [], _, _, _, h => .inl h.1
  | .table t' moved :: pre, _, _, _, h => by
    obtain ⟨rfl, _, h⟩ := h
    rcases table_mem h with h | h
    · rcases List.mem_cons.1 h with rfl | h
      · exact .inr List.mem_cons_self
      · exact .inl h
    · exact .inr (List.mem_cons_of_mem _ h)
  | .count t' cs' :: pre, _, _, _, h => by
    rcases table_mem h.2.2.2 with h | h
    · exact .inl h
    · exact .inr (List.mem_cons_of_mem _ h)
  | .drop t' :: pre, _, _, _, h => by
    rcases table_mem h.2.2 with h | h
    · exact .inl (List.mem_filter.1 h).1
    · exact .inr (List.mem_cons_of_mem _ h)

theorem calls_pre {rts : Nat → ReductionTable} {t : Nat} : ∀ {pre es : List Event} {programs : List Nat}
    {kernels : List (Nat × Nat)}, counts pre = [] → ∃ as, calls rts programs kernels (pre ++ es) =
      as ++ calls rts programs kernels es ∧
      (∀ c ∈ as, (∀ b' n, c ≠ .read b' n) ∧ c ≠ .free .arg ∧ ¬ Uses c (.buffer (.unramified t))) ∧
      (Event.table t false ∈ pre → ∃ n, Call.make (.buffer (.unramified t)) n ∈ as)
  | [], _, _, _, _ => ⟨[], rfl, by simp, by simp⟩
  | .count t' cs :: pre, _, _, _, h => by cases h
  | .table t' moved :: pre, es, programs, kernels, h => by
    obtain ⟨as, h1, h2, h3⟩ := calls_pre (rts := rts) (t := t) (es := es) (programs := programs) (kernels := kernels)
      (pre := pre) h
    refine ⟨eventCalls rts programs kernels (.table t' moved) ++ as, ?_, ?_, ?_⟩
    · rw [List.append_assoc, ← h1]; rfl
    · intro c hc
      rcases List.mem_append.1 hc with hc | hc
      · cases moved
        · simp [eventCalls] at hc
          rcases hc with h | h | h | h | h | h | h | h <;> subst h <;> simp [Uses]
        · simp [eventCalls] at hc
          rcases hc with h | h <;> subst h <;> simp [Uses]
      · exact h2 c hc
    · intro hm
      rcases List.mem_cons.1 hm with hm | hm
      · cases hm
        exact ⟨(rts t).primePowerPred, by simp [eventCalls]⟩
      · obtain ⟨n, h4⟩ := h3 hm
        exact ⟨n, List.mem_append_right _ h4⟩
  | .drop t' :: pre, es, programs, kernels, h => by
    obtain ⟨as, h1, h2, h3⟩ := calls_pre (rts := rts) (t := t) (es := es) (programs := programs) (kernels := kernels)
      (pre := pre) h
    refine ⟨eventCalls rts programs kernels (.drop t') ++ as, ?_, ?_, ?_⟩
    · rw [List.append_assoc, ← h1]; rfl
    · intro c hc
      rcases List.mem_append.1 hc with hc | hc
      · simp [eventCalls] at hc
        rcases hc with h | h <;> subst h <;> simp [Uses]
      · exact h2 c hc
    · intro hm
      rcases List.mem_cons.1 hm with hm | hm
      · cases hm
      · obtain ⟨n, h4⟩ := h3 hm
        exact ⟨n, List.mem_append_right _ h4⟩

end Calls
end Hycu
