import Verif.Lemmas.OpenCLRace
import Verif.Props.Count

/-!
C58: counts with OpenCL, where host and device run at the same time.

The full claim, that no session of careful code has undefined behaviour and that all of its counts are right, is false
(`C58_false`): the vector of coefficients is written to the device without waiting for the end of the transfer, and
`enqueue` frees its copy of the vector when it returns.  What holds is the same claim for executions in which the device
has read the coefficients by then.
-/

namespace Hycu
namespace OpenCL

open Function Fintype

/-- C58: careful sessions do not have undefined behaviour, do not end the program, and there is always a next step until
host and device have done everything; in executions in which the coefficients are read in time. -/
theorem C58_safe_partial {rts : Nat → ReductionTable} {es : List Event} (h : Careful rts [] [] [] es)
    {junk : Buf → Nat → Nat} {s : State} (hs : Reachable Prompt junk (initial rts es) s) :
    (∀ a, Prompt s a → ∃ o, step junk s a = .ok o) ∧
    (s.todo ≠ [] ∨ s.queue ≠ [] → ∃ a s', Prompt s a ∧ step junk s a = .ok (some s')) := by
  obtain ⟨z, _, h1, _⟩ := inv_initial (junk := junk) h
  have hi := inv_reachable h1 hs
  refine ⟨fun a ha => ?_, inv_progress hi⟩
  rcases inv_step hi ha with h2 | ⟨s', h2, _⟩
  · exact ⟨_, h2⟩
  · exact ⟨_, h2⟩

/-- C58: there are no infinite executions. -/
theorem C58_finite_partial {rts : Nat → ReductionTable} {es : List Event} (h : Careful rts [] [] [] es)
    {junk : Buf → Nat → Nat} (f : Nat → State) (h0 : f 0 = initial rts es) :
    ¬ ∀ n, ∃ a, Prompt (f n) a ∧ step junk (f n) a = .ok (some (f (n + 1))) := by
  intro hf
  obtain ⟨z, _, h1, _⟩ := inv_initial (junk := junk) h
  have key : ∀ n, Inv junk z (f n) ∧ work (f n) + n ≤ work (f 0) := by
    intro n
    induction n with
    | zero => exact ⟨h0 ▸ h1, by omega⟩
    | succ n ih =>
      obtain ⟨a, ha, hs⟩ := hf n
      rcases inv_step ih.1 ha with h2 | ⟨s', h2, h3, h4⟩
      · rw [h2] at hs; cases hs
      · rw [h2] at hs
        cases hs
        exact ⟨h3, by omega⟩
  have := (key (work (f 0) + 1)).2
  omega

/-- C58: whatever the order of the steps of host, device and work items, and whatever new buffers have in them, at the end
the host has read two vectors for every count, and their sums are the result of the count in which everything happens one
after the other. -/
theorem C58_counts_partial {rts : Nat → ReductionTable} {es : List Event} (h : Careful rts [] [] [] es)
    {junk : Buf → Nat → Nat} {s : State} (hs : Reachable Prompt junk (initial rts es) s) (ht : s.todo = []) :
    ∃ res : List (List Nat × List Nat), s.out = res.flatMap (fun p => [p.1, p.2]) ∧
      List.Forall₂ (fun c p => reduce p.1 p.2 = Curve.countOpencl (rts c.1) c.2 (0, 0)) (counts es) res := by
  obtain ⟨z, res, h1, h2, h3⟩ := inv_initial (junk := junk) h
  exact ⟨res, (inv_end (inv_reachable h1 hs) ht).trans h2, h3⟩

/-- C58: for a table of a field that result is the number of points with `x ≠ 0`, separately for `y ≠ 0` and `y = 0`; in
particular the count ends (as `Careful` demands). -/
theorem C58_points {K : Type} [Field K] [Fintype K] {p e : Nat} {g : K} {rt : ReductionTable} (hp2 : p ≠ 2)
    (hR : BuiltReductionTable p e g rt) (hQ : card K ≤ 1073741824) {cs : List Nat} (hne : cs ≠ [])
    (hcs : ∀ c ∈ cs, c < card K) :
    let f := polyOfList (cs.map (eltOf g (card K)))
    Curve.countOpencl rt cs (0, 0) = .ok (Nat.card {P : K × K // P.1 ≠ 0 ∧ P.2 ^ 2 = f.eval P.1 ∧ P.2 ≠ 0},
      Nat.card {P : K × K // P.1 ≠ 0 ∧ P.2 ^ 2 = f.eval P.1 ∧ P.2 = 0}) := by
  intro f
  classical
  obtain ⟨hp, hpos, hcard⟩ := hR.prime
  obtain ⟨hodd, hq2⟩ := odd_card_of hp hp2 hcard hpos
  obtain ⟨_, _, _, _, _, h6, _⟩ := hR.facts hq2
  rw [countOpencl_spec h6 hodd hQ hne hcs]
  have hg := h6.tables.prim
  have h1 : ∀ (Q : K → K → Prop), Nat.card {P : K × K // P.1 ≠ 0 ∧ Q P.1 P.2} =
      ((List.range (card K - 1)).map fun i => Nat.card {y : K // Q (g ^ i) y}).sum := by
    intro Q
    let e : {P : K × K // P.1 ≠ 0 ∧ Q P.1 P.2} ≃ (Σ x : K, {y : K // x ≠ 0 ∧ Q x y}) :=
      { toFun := fun P => ⟨P.1.1, P.1.2, P.2⟩
        invFun := fun s => ⟨(s.1, s.2.1), s.2.2⟩
        left_inv := fun _ => rfl
        right_inv := fun _ => rfl }
    rw [Nat.card_congr e, Nat.card_sigma, sum_field hg]
    have h0 : Nat.card {y : K // (0 : K) ≠ 0 ∧ Q 0 y} = 0 := by
      rw [Nat.card_eq_zero]
      exact .inl ⟨fun y => y.2.1 rfl⟩
    rw [h0, Nat.zero_add]
    congr 1
    apply List.map_congr_left
    intro i _
    have hgi : g ^ i ≠ 0 := pow_ne_zero _ hg.1
    simp only [hgi, ne_eq, not_false_eq_true, true_and]
  rw [h1 (fun x y => y ^ 2 = f.eval x ∧ y ≠ 0), h1 (fun x y => y ^ 2 = f.eval x ∧ y = 0)]
  simp only [numSqrt_zero_root]
  rfl

/-- C58 without its assumption is false: every careful session with a count has an execution in which the device reads the
coefficients after `enqueue` has freed them. -/
theorem C58_false {rts : Nat → ReductionTable} {es : List Event} (h : Careful rts [] [] [] es) (hc : counts es ≠ [])
    (junk : Buf → Nat → Nat) :
    ∃ s, Reachable Any junk (initial rts es) s ∧ step junk s (.device 0) = .ub := by
  obtain ⟨z, _, h1, _⟩ := inv_initial (junk := junk) h
  obtain ⟨s, h2, h3, -⟩ := race h1 hc
  exact ⟨s, h2, h3⟩

/-- Why `Careful` says that tables are not destroyed before a count: the table may be freed before its content has been
transferred (src/opencl/buffer_evaluation.cc l.53-66 does not wait either), whatever the coefficients do. -/
theorem C58_drop_early (rts : Nat → ReductionTable) (t : Nat) (junk : Buf → Nat → Nat) :
    ∃ s, Reachable Prompt junk (initial rts [.table t false, .drop t]) s ∧ step junk s (.device 0) = .ub :=
  drop_early junk rts t

/-- Why `Careful` excludes the constructor that takes a reference to an rvalue: it makes no buffers, and no execution gets
beyond the use of the kernel, which is undefined. -/
theorem C58_moved (rts : Nat → ReductionTable) (t : Nat) (cs : List Nat) (junk : Buf → Nat → Nat) :
    (∃ s, Reachable Any junk (initial rts [.table t true, .count t cs]) s ∧ step junk s .host = .ub) ∧
    ∀ s, Reachable Any junk (initial rts [.table t true, .count t cs]) s →
      s.todo ≠ [] := by
  constructor
  · refine ⟨_, hosts_any (n := 5) (by
      simp only [hosts, host, initial, ops, Event.ops, Event.kernels, check, get, Res.bind_ok, List.cons_append,
        List.nil_append, update_self, ne_eq, reduceCtorEq, not_false_eq_true, update_of_ne, Option.isSome_none, if_true,
        List.not_mem_nil, Bool.false_eq_true, if_false, List.length_map, List.length_range, le_refl]
      rfl), ?_⟩
    simp only [step, host, check, get, kernelFor, update_self, ne_eq, reduceCtorEq, not_false_eq_true, update_of_ne]
    rfl
  · intro s hs
    obtain ⟨_, as, h, _⟩ := stuck (k := kernelFor (rts t) t (cs.length - 1)) (items := List.range (rts t).primePowerPred)
      (as := [.alloc (.ert t) (rts t).exponentReductionTable, .alloc (.inc t) (rts t).incrementationTable,
        .create (.coeffs t (cs.length - 1)) (cs.length - 1 + 1), .alloc .arg cs,
        .enqueue (.write (.coeffs t (cs.length - 1)) .arg (cs.length - 1 + 1))])
      (r := [.free .arg, .read (.unramified t) (rts t).primePowerPred, .read (.ramified t) (rts t).primePowerPred])
      hs rfl rfl (by simp [kernelFor])
    rw [h]
    simp

/-- A careful session with two tables of the field of 7 elements, three counts with polynomials of degrees 3 and 1, where a
kernel is used twice, and a table that is made after the other one has been destroyed. -/
example : ∃ rt, ReductionTable.make rep7.coeff (fun _ => (3 : ZMod 7)) 7 1 true 1 = .ok rt ∧
    Careful (fun _ => rt) [] [] [] [.table 0 false, .table 1 false, .count 0 [6, 0, 6, 0], .count 0 [1, 2, 3, 4], .drop 0,
      .table 2 false, .count 1 [3, 0], .drop 1] ∧
    Curve.countOpencl rt [6, 0, 6, 0] (0, 0) = .ok (6, 0) ∧ Curve.countOpencl rt [3, 0] (0, 0) = .ok (6, 1) := by
  refine ⟨_, rfl, ?_, by decide, by decide⟩
  exact ⟨rfl, by decide, rfl, by decide, by decide, by decide, ⟨_, rfl⟩, by decide, by decide, ⟨_, rfl⟩, by decide, by decide,
    rfl, by decide, by decide, by decide, ⟨_, rfl⟩, by decide, by decide, trivial⟩

end OpenCL
end Hycu
