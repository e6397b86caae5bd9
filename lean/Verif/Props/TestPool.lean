import Verif.Lemmas.TestPool
import Verif.Props.ReferenceStore
import Verif.Props.Ends
import Verif.Props.LocksHang

/-!
C78: the tests in test/threaded.cc with their pool of threads, for all primes and genera.
-/

namespace Hycu
namespace Reference

open Polynomial Fintype

variable {p : Nat} [Fact p.Prime] {E : Nat → Extension (ZMod p)}

theorem nonzero_of_feasible {c : ConfigNode} (hc : c.Feasible) (hp : c.prime = p)
    (hr : c.primeExponent = 1) : Run.Nonzero c where
  prime := by rw [hp]; exact (Fact.out : p.Prime).ne_zero
  exponent := by rw [hr]; exact Nat.one_ne_zero
  genus := hc.genus_pos.ne'
  count := hc.count_pos.ne'
  package := hc.package_pos.ne'

theorem test_tasks {w : Flint} {c : ConfigNode} (s : w.Setting c) (hc : c.Feasible)
    (hn : ∀ k, s.count k < 4611686018427387904) {boxes : List Block} (hb : Terminates (w.blocks c) boxes) :
    Run.Tasks w.env [⟨c, boxes⟩] w.resultOf :=
  Flint.tasks (by intro x hx; rw [List.mem_singleton] at hx; subst hx; exact ⟨s, hn⟩)
    (by intro x hx; rw [List.mem_singleton] at hx; subst hx; exact hc)
    (by intro x hx; rw [List.mem_singleton] at hx; subst hx; exact hb)

/-- C78: whatever the order in which the threads of the pool and the main thread of the test make their steps, no step
fails, and when the destructor of the pool has returned the static store is the reference store. -/
theorem C78_pool {w : Flint} {c : ConfigNode} (s : w.Setting c) (hc : c.Feasible) (hp : c.prime = p)
    (hr : c.primeExponent = 1) (hm : c.countExponent = c.genus) (hmk : c.withMarkedPoint = false)
    (hn : ∀ k, s.count k < 4611686018427387904) {S : Sage p E} (h : S.Ok c.genus)
    {boxes : List Block} (hb : Terminates (w.blocks c) boxes) {kinds : List Bool} (hk : kinds.length < 4294967296)
    {fs : FileSystem} (hf : fs c.resultPath = none) {x : PoolState}
    (hx : PoolReachable w.env (poolInitial kinds fs c boxes) x) :
    (∀ l, ∃ o, poolStep w.env x l = .ok o) ∧ (x.run.pc = .finished → x.test = store S c.genus) := by
  have hi := test_tasks s hc hn hb
  have hz := nonzero_of_feasible hc hp hr
  refine ⟨fun l => ?_, fun he => ?_⟩
  · obtain ⟨st, h1, h2⟩ := exists_sim hi hz hk hf hx
    obtain ⟨o, ho, _⟩ := forward hi hz hk h1 h2 l
    exact ⟨o, ho⟩
  · obtain ⟨order, ho, h1⟩ := pool_end hi hz hk hf hx he
    exact Res.ok.inj (h1.symm.trans (C78_test s hc hp hr hm hmk hn h hb ho))

/-- C78: if there is a thread, the test can come to its end. -/
theorem C78_pool_ends {w : Flint} {c : ConfigNode} (s : w.Setting c) (hc : c.Feasible) (hp : c.prime = p)
    (hr : c.primeExponent = 1) (hn : ∀ k, s.count k < 4611686018427387904)
    {boxes : List Block} (hb : Terminates (w.blocks c) boxes) {kinds : List Bool} (hk : kinds.length < 4294967296)
    (h0 : kinds ≠ []) {fs : FileSystem} (hf : fs c.resultPath = none) :
    ∃ x, PoolReachable w.env (poolInitial kinds fs c boxes) x ∧ x.run.pc = .finished := by
  have hi := test_tasks s hc hn hb
  have hz := nonzero_of_feasible hc hp hr
  obtain ⟨st, h1, h2, _⟩ := Run.C51_reachable (shadow_input hi) (shadow_past (fs := fs))
    (by intro x hx; rw [List.mem_singleton] at hx; subst hx; exact hz) hk h0
  obtain ⟨x, h3, h4⟩ := backward hi hz hk hf h1
  refine ⟨x, h3, ?_⟩
  cases h4.stage with
  | verify _ _ _ _ g5 _ => rw [h2] at g5; cases g5
  | config _ _ _ _ _ g6 => rw [h2] at g6; simp at g6
  | update _ _ _ _ _ g6 => rw [h2] at g6; cases g6
  | later bs _ _ _ _ g5 _ => rw [g5, h2]
  | write _ _ _ _ _ _ _ g5 _ _ => rw [h2] at g5; cases g5

/-- C78: the test can also hang, as every run can: a state in which only a spurious wake-up helps. -/
theorem C78_pool_hangs {w : Flint} {c : ConfigNode} (s : w.Setting c) (hc : c.Feasible) (hp : c.prime = p)
    (hr : c.primeExponent = 1) (hn : ∀ k, s.count k < 4611686018427387904)
    {boxes : List Block} (hb : Terminates (w.blocks c) boxes) {kinds : List Bool} (hk : kinds.length < 4294967296)
    (h0 : kinds ≠ []) {fs : FileSystem} (hf : fs c.resultPath = none) :
    ∃ x, PoolReachable w.env (poolInitial kinds fs c boxes) x ∧ x.run.pc = .join 0 ∧
      ∀ l, (∀ i, l ≠ .spurious i) → poolStep w.env x l = .ok none := by
  have hi := test_tasks s hc hn hb
  have hz := nonzero_of_feasible hc hp hr
  obtain ⟨σ, ls, he, _, N, hN⟩ := Run.C51_hangs (shadow_input hi) (shadow_past (fs := fs)) hk h0
  obtain ⟨h2, h5⟩ := hN N le_rfl
  obtain ⟨x, h3, h4⟩ := backward hi hz hk hf (he.reachable N)
  have hpc : x.run.pc = .join 0 := by
    cases h4.stage with
    | verify _ _ _ _ g5 _ => rw [h2] at g5; cases g5
    | config _ _ _ _ _ g6 => rw [h2] at g6; simp at g6
    | update _ _ _ _ _ g6 => rw [h2] at g6; cases g6
    | later bs _ _ _ _ g5 _ => rw [g5, h2]
    | write _ _ _ _ _ _ _ g5 _ _ => rw [h2] at g5; cases g5
  have hsize : (σ N).size = kinds.length :=
    ((Run.Good.init w.env hk _ hi.blocks).reachable (he.reachable N)).size
  have hsl : ∀ i, i < x.run.size → (x.run.thr i).phase = .sleep := fun i hx => by
    rw [h4.agree.thr]
    exact h5 i (by rw [← hsize, ← h4.agree.size]; exact hx)
  refine ⟨x, h3, hpc, fun l hl => ?_⟩
  cases l with
  | thread i =>
    simp only [poolStep]
    split_ifs with hx
    · simp only [poolThread, PoolState.lift, Run.threadStep, hsl i hx]
      rfl
    · rfl
  | master ch =>
    have h6 : (x.run.thr 0).phase = .sleep := hsl 0 (by
      rw [h4.agree.size, hsize]; exact List.length_pos_iff.2 h0)
    simp only [poolStep, PoolState.lift, Run.step, Run.masterStep, hpc, h6]
    rfl
  | spurious i => exact absurd rfl (hl i)

/-- Hypotheses of `C78_pool`: curves of genus 2 over the field of 3 elements, with fields of 3 and 9 elements, two threads,
no directories, and a state at the end. -/
example : ∃ (w : Flint) (c : ConfigNode) (s : w.Setting c) (E : Nat → Extension (ZMod 3)) (S : Sage 3 E)
    (boxes : List Block) (x : PoolState), c.prime = 3 ∧ c.primeExponent = 1 ∧ c.countExponent = c.genus ∧ c.genus = 2 ∧
    c.withMarkedPoint = false ∧ c.Feasible ∧ (∀ k, s.count k < 4611686018427387904) ∧ S.Ok c.genus ∧
    Terminates (w.blocks c) boxes ∧ c.resultPath = [] ∧
    PoolReachable w.env (poolInitial [false, false] (fun _ => none) c boxes) x ∧ x.run.pc = .finished := by
  have : Fact (Nat.Prime 3) := ⟨by decide⟩
  obtain ⟨w, hw⟩ := setting_three
  let c : ConfigNode := ⟨3, 1, 2, false, 2, [], 7⟩
  obtain ⟨s⟩ := hw c rfl rfl le_rfl
  have hc : c.Feasible := ⟨by decide, by decide, by decide, by decide, by decide⟩
  have hn : ∀ k, s.count k < 4611686018427387904 := fun k => by
    refine lt_of_le_of_lt (s.count_le k) ?_
    show (3 ^ 1) ^ (2 * 2 + 3) < _
    norm_num
  obtain ⟨boxes, hb, _⟩ := C47_blocks s hc hn
  let E : Nat → Extension (ZMod 3) := fun n => if n = 1 then ⟨ZMod 3, inferInstance, inferInstance, inferInstance, RingHom.id _⟩
    else ⟨GaloisField 3 2, inferInstance, Fintype.ofFinite _, Classical.decEq _, algebraMap _ _⟩
  obtain ⟨S, hS⟩ := exists_sage (E := E) (m := 2) fun n h0 h2 => by
    have : n = 1 ∨ n = 2 := by omega
    rcases this with rfl | rfl
    · exact ZMod.card 3
    · show @Fintype.card (GaloisField 3 2) _ = 3 ^ 2
      rw [← Nat.card_eq_fintype_card]
      exact GaloisField.card 3 2 (by decide)
  obtain ⟨x, h1, h2⟩ := C78_pool_ends (p := 3) s hc rfl rfl hn hb (kinds := [false, false]) (by decide) (by decide)
    (fs := fun _ => none) rfl
  exact ⟨w, c, s, E, S, boxes, x, rfl, rfl, rfl, rfl, rfl, hc, hn, hS, hb, rfl, h1, h2⟩

end Reference
end Hycu
