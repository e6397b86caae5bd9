import Verif.Lemmas.OpenCLItemsRace
import Verif.Props.OpenCL

/-!
C77: work items of the evaluation kernel in single accesses.
-/

namespace Hycu
namespace Items

open OpenCL Function Fintype

/-- C77: in careful sessions, whatever the order in which host, device and all work items make their accesses, there are no
conflicting accesses, no other undefined behaviour, the program is not ended, and there is always a next step until
everything is done; in executions in which the coefficients are read before they are freed. -/
theorem C77_safe {rts : Nat → ReductionTable} {es : List Event} (h : Careful rts [] [] [] es) {junk : Buf → Nat → Nat}
    {s : State} (hs : Reachable Prompt junk (initial rts es) s) :
    (∀ a, Prompt s a → ∃ o, step junk s a = .ok o) ∧
    (s.base.todo ≠ [] ∨ s.base.queue ≠ [] → ∃ a s', Prompt s a ∧ step junk s a = .ok (some s')) := by
  obtain ⟨z, _, h1, _⟩ := inv_initial (junk := junk) h
  obtain ⟨hg, hi⟩ := good_reachable (good_initial h1).1 (good_initial h1).2 hs
  refine ⟨fun a ha => ?_, good_progress hg hi⟩
  rcases good_step hg hi ha with h2 | ⟨s', h2, _⟩
  · exact ⟨_, h2⟩
  · exact ⟨_, h2⟩

/-- C77: there are no infinite executions. -/
theorem C77_finite {rts : Nat → ReductionTable} {es : List Event} (h : Careful rts [] [] [] es) {junk : Buf → Nat → Nat}
    (f : Nat → State) (h0 : f 0 = initial rts es) :
    ¬ ∀ n, ∃ a, Prompt (f n) a ∧ step junk (f n) a = .ok (some (f (n + 1))) := by
  obtain ⟨z, _, h1, _⟩ := inv_initial (junk := junk) h
  have h2 := good_initial h1
  exact good_finite _ _ f rfl rfl (h0 ▸ h2.1) (h0 ▸ h2.2)

/-- C77: at the end the host has read two vectors for every count, and their sums are the result of the count in which
everything happens one after the other (for a table of a field see `OpenCL.C58_points`). -/
theorem C77_counts {rts : Nat → ReductionTable} {es : List Event} (h : Careful rts [] [] [] es) {junk : Buf → Nat → Nat}
    {s : State} (hs : Reachable Prompt junk (initial rts es) s) (ht : s.base.todo = []) :
    ∃ res : List (List Nat × List Nat), s.base.out = res.flatMap (fun p => [p.1, p.2]) ∧
      List.Forall₂ (fun c p => reduce p.1 p.2 = Curve.countOpencl (rts c.1) c.2 (0, 0)) (counts es) res := by
  obtain ⟨z, res, h1, h2, h3⟩ := inv_initial (junk := junk) h
  obtain ⟨-, hi⟩ := good_reachable (good_initial h1).1 (good_initial h1).2 hs
  have hout : (view s).out = s.base.out := by
    unfold view
    split <;> rfl
  exact ⟨res, (hout ▸ inv_end hi ((view_todo s).trans ht)).trans h2, h3⟩

/-- C77: a kernel for a table of a field and a polynomial, on buffers that have them: in every execution no step is
undefined, there is a next step until the kernel has ended, and then the places of the buffers have the numbers of `y ≠ 0`
and of `y = 0` with `y ^ 2 = f x`, for the `x` that are not `0`. -/
theorem C77_places {K : Type} [Field K] [Fintype K] {p e : Nat} {g : K} {rt : ReductionTable} (hp2 : p ≠ 2)
    (hR : BuiltReductionTable p e g rt) (hQ : card K ≤ 1073741824) {cs : List Nat} (hne : cs ≠ [])
    (hcs : ∀ c ∈ cs, c < card K) {t : Nat} {junk : Buf → Nat → Nat} {s₀ s : State} (h0 : Ready rt t cs s₀)
    (hs : Reachable Any junk s₀ s) :
    let f := polyOfList (cs.map (eltOf g (card K)))
    (∀ a, ∃ o, step junk s a = .ok o) ∧ (s.base.queue ≠ [] → ∃ a s', step junk s a = .ok (some s')) ∧
    (s.base.queue = [] →
      s.base.bufs (.unramified t) =
        some ((List.range (card K - 1)).map fun i => Nat.card {y : K // y ^ 2 = f.eval (g ^ i) ∧ y ≠ 0}) ∧
      s.base.bufs (.ramified t) =
        some ((List.range (card K - 1)).map fun i => Nat.card {y : K // y ^ 2 = f.eval (g ^ i) ∧ y = 0})) := by
  intro f
  classical
  obtain ⟨hp, hpos, hcard⟩ := hR.prime
  obtain ⟨hodd, hq2⟩ := odd_card_of hp hp2 hcard hpos
  obtain ⟨_, _, _, _, _, h6, _⟩ := hR.facts hq2
  have hlen : cs.length - 1 + 1 = cs.length := Nat.succ_pred (fun h => hne (List.length_eq_zero_iff.1 h))
  obtain ⟨u, hu, lu⟩ := h0.unramified
  obtain ⟨r, hr, lr⟩ := h0.ramified
  have hex : ∀ x, ∃ f', x < card K - 1 → Curve.evalKernel rt.exponentReductionTable rt.incrementationTable
      (card K - 1) cs x = .ok f' ∧ eltOf g (card K) f' = f.eval (g ^ x) := by
    intro x
    by_cases hx : x < card K - 1
    · obtain ⟨f', _, h2, h3⟩ := evalKernel_spec h6.tables hQ hx hne hcs
      exact ⟨f', fun _ => ⟨h2, h3⟩⟩
    · exact ⟨0, fun h => absurd h hx⟩
  choose fx hfx using hex
  set k := kernelFor rt t (cs.length - 1) with hk
  have hsep : k.Sep := kernelFor_sep rt t (cs.length - 1)
  have hpred : rt.primePowerPred = card K - 1 := h6.pred
  have hval : ∀ x, x < rt.primePowerPred → value k s₀.base.bufs x = .ok (fx x) := by
    intro x hx
    unfold value
    have e1 : get s₀.base.bufs k.coeffs = .ok cs := get_eq_ok.2 h0.coeffs
    have e2 : get s₀.base.bufs k.ert = .ok rt.exponentReductionTable := get_eq_ok.2 h0.ert
    have e3 : get s₀.base.bufs k.inc = .ok rt.incrementationTable := get_eq_ok.2 h0.inc
    have e4 : k.polySize = cs.length := hlen
    have e5 : k.pred = card K - 1 := hpred
    rw [e1, Res.bind_ok, e2, Res.bind_ok, e3, Res.bind_ok, e4, mapM_rd, Res.bind_ok, e5]
    exact (hfx x (hpred ▸ hx)).1
  have hall := kernel_all hsep hval hu hr lu lr
  have hbase : s₀.base = ⟨s₀.base.heap, s₀.base.bufs, [.kernel k (List.range rt.primePowerPred)], [], s₀.base.out⟩ := by
    rw [← h0.queue, ← h0.todo]
  have hinv0 := inv_alone (junk := junk) (heap := s₀.base.heap) (out := s₀.base.out) hsep List.nodup_range hall
  have hinv := Eq.mpr (congrArg (Inv junk _) ((view_fresh (s := s₀) (funext h0.pc)).trans hbase)) hinv0
  have hgood : Good s₀ := good_fresh (funext h0.pc) h0.log (by
    rw [h0.queue]
    intro k' items hm
    rw [List.mem_singleton] at hm
    cases hm
    exact ⟨hsep, List.nodup_range⟩)
  obtain ⟨hs', ht⟩ := alone h0.todo hs
  obtain ⟨hg, hi⟩ := good_reachable hgood hinv hs'
  refine ⟨fun a => ?_, fun hq => ?_, fun hq => ?_⟩
  · rcases good_step hg hi (alone_prompt ht a) with h2 | ⟨s', h2, _⟩
    · exact ⟨_, h2⟩
    · exact ⟨_, h2⟩
  · obtain ⟨a, s', -, h2⟩ := good_progress hg hi (.inr hq)
    exact ⟨a, s', h2⟩
  · rw [view_other (by simp [hq])] at hi
    obtain ⟨b, h1, h2⟩ := hi.sim
    rw [hq] at h1
    rw [ht] at h2
    cases h1
    have hb := congrArg Now.bufs (Res.ok.inj h2)
    simp only at hb
    have hmem : ∀ x ∈ List.range (card K - 1), x < card K - 1 := fun x hx => List.mem_range.1 hx
    have hU := affUnr_eq_unr h6.tables.prim hodd (f := f) (fx := fx) (l := List.range (card K - 1))
      (fun x hx => (hfx x (hmem x hx)).2)
    have hRm := affRam_eq_ram h6.tables.prim (f := f) (fx := fx) (l := List.range (card K - 1))
      (fun x hx => (hfx x (hmem x hx)).2)
    have hkp : k.pred = card K - 1 := hpred
    constructor
    · rw [hb, update_of_ne (show Buf.unramified t ≠ k.ramified by simp [hk, kernelFor])]
      rw [show Buf.unramified t = k.unramified from rfl, update_self, hpred, hkp]
      simp only [kernelOut_eq]
      rw [hU]
      rfl
    · rw [hb, show Buf.ramified t = k.ramified from rfl, update_self, hpred, hkp]
      simp only [kernelOut_eq, numSqrt_zero_root]
      rw [hRm]

/-- C77: every execution with work items in one step is one with single accesses: there is an execution that comes to the
same host, buffers and results, for any session. -/
theorem C77_includes {rts : Nat → ReductionTable} {es : List Event} {junk : Buf → Nat → Nat} {t : OpenCL.State}
    (hr : OpenCL.Reachable OpenCL.Any junk (OpenCL.initial rts es) t) (hq : t.queue = []) :
    ∃ s, Reachable Any junk (initial rts es) s ∧ s.base = t := by
  obtain ⟨s, h1, h2⟩ := lift (s := initial rts es) (t := OpenCL.initial rts es)
    ⟨view_fresh rfl, good_fresh rfl rfl (by intro k items hm; cases hm), fun _ => .inl rfl, opOk_ops,
      by intro k items hm; cases hm⟩ hr
  refine ⟨s, h1, ?_⟩
  have h3 := h2.view
  rw [view_other] at h3
  · exact h3
  · intro k items q he
    rw [view_kernel he] at h3
    rw [← h3] at hq
    cases hq

/-- C77 without its assumption is false as C58 is: every careful session with a count has an execution in which the device
reads the coefficients after `enqueue` has freed them. -/
theorem C77_late {rts : Nat → ReductionTable} {es : List Event} (h : Careful rts [] [] [] es) (hc : counts es ≠ [])
    (junk : Buf → Nat → Nat) : ∃ s, Reachable Any junk (initial rts es) s ∧ step junk s .next = .ub := by
  obtain ⟨z, _, h1, _⟩ := inv_initial (junk := junk) h
  exact late h1 hc

/-- Why the buffers must be separate: with one buffer for both results no execution gets to the end of a kernel that has a
work item, as its second write is undefined. -/
theorem C77_same {k : Kernel} (hk : k.unramified = k.ramified) {items : List Nat} (hne : items ≠ []) {q : List Cmd}
    {junk : Buf → Nat → Nat} {s₀ s : State} (hq : s₀.base.queue = .kernel k items :: q) (h0 : ∀ x, s₀.pc x = .start)
    (hr : Reachable Any junk s₀ s) : ∃ r, s.base.queue = .kernel k items :: r := by
  obtain ⟨x, hx⟩ := List.exists_mem_of_ne_nil items hne
  refine (same_stuck hk hx hr hq ⟨?_, ?_⟩).1
  · rw [h0]; simp
  · intro f hf
    rw [h0] at hf; cases hf

/-- A state in which the kernel for the field of 7 elements and `x ^ 3 + x + 5` is about to run. -/
def ready7 (rt : ReductionTable) : State where
  base :=
    { heap := fun _ => none
      bufs := fun b => match b with
        | .coeffs 0 3 => some [5, 0, 6, 0]
        | .ert 0 => some rt.exponentReductionTable
        | .inc 0 => some rt.incrementationTable
        | .unramified 0 => some (List.replicate rt.primePowerPred 9)
        | .ramified 0 => some (List.replicate rt.primePowerPred 9)
        | _ => none
      queue := [.kernel (kernelFor rt 0 3) (List.range rt.primePowerPred)]
      todo := []
      out := [] }
  pc _ := .start
  log := []

/-- The hypotheses of `C77_places`. -/
example : ∃ rt, BuiltReductionTable 7 1 (3 : ZMod 7) rt ∧ Ready rt 0 [5, 0, 6, 0] (ready7 rt) ∧ rt.primePowerPred = 6 := by
  refine ⟨_, ⟨rep7, fun _ => 3, 0, 1, true, ?_, rfl, rfl⟩, ⟨rfl, rfl, fun _ => rfl, rfl, rfl, rfl, rfl, ⟨_, rfl, by simp⟩,
    ⟨_, rfl, by simp⟩⟩, rfl⟩
  exact ⟨primitive_three_seven, by omega⟩

/-- Two work items of this kernel, one access of the one after one of the other. -/
example : ∃ rt, ReductionTable.make rep7.coeff (fun _ => (3 : ZMod 7)) 7 1 true 1 = .ok rt ∧
    ((List.range 21).flatMap (fun _ => [2, 0])).foldlM (fun s x => do
      let o ← step (fun _ _ => 0) s (.item x)
      pure (o.getD s)) (ready7 rt) >>= (fun s => pure (s.pc 2, s.pc 0, s.base.bufs (.unramified 0), s.base.bufs (.ramified 0)))
      = .ok (.done, .done, some [0, 9, 2, 9, 9, 9], some [1, 9, 0, 9, 9, 9]) := ⟨_, rfl, by decide⟩

end Items
end Hycu
