import Verif.Lemmas.FlintInput
import Verif.Props.Resume
import Verif.Props.Mpi
import Verif.Props.Ramification

/-!
C47: from the configuration to the merged result.
-/

namespace Hycu

open Polynomial Fintype

variable {w : Flint} {c : ConfigNode} {ss : List Run.Sect} {fs : FileSystem}

/-- C47: the enumeration of the blocks of a configuration ends, every block can be computed, and the numbers of
polynomials are the sums of the results. -/
theorem C47_blocks (s : w.Setting c) (hc : c.Feasible) (hs : ∀ k, s.count k < 4611686018427387904) :
    ∃ boxes, Terminates (w.blocks c) boxes ∧ boxes.Nodup ∧
      ∃ result : Block → StoreMap, (∀ b ∈ boxes, w.env.compute c b = .ok (result b)) ∧
        ∀ k, total (boxes.flatMap result) k = s.count k := by
  obtain ⟨boxes, h1, h2, _, result, h3, h4⟩ := s.result hc hs
  exact ⟨boxes, h1, h2, result, fun b hb => (h3 b hb).1, h4⟩

/-- C47: a run of the program with one process never fails: every step of every thread can be made. -/
theorem C47_safe (hw : ∀ s ∈ ss, w.Setting s.cfg) (hc : ∀ s ∈ ss, s.cfg.Feasible)
    (hn : ∀ s hs k, (hw s hs).count k < 4611686018427387904) (hp : (ss.map fun s => s.cfg.resultPath).Nodup)
    (hb : ∀ s ∈ ss, Terminates (w.blocks s.cfg) s.blocks) (hf : Run.Past w.env ss fs) {kinds : List Bool}
    (hk : kinds.length < 4294967296) {st : Run.State}
    (hr : Run.Reachable w.env (Run.initial kinds fs (Run.program ss)) st) (l : Run.Label) :
    ∃ o, Run.step w.env st l = .ok o :=
  Run.C38_safe (Flint.input (fun s hs => ⟨hw s hs, hn s hs⟩) hc hp hb) hf hk hr l

/-- C47: after a complete run with one process, whatever happened in earlier runs (except for crashes inside the write
of a record file), the merger writes for every ramification type and all Hasse-Weil offsets the number of squarefree
polynomials that have them, of degree `2 genus + 1`, or `2 genus + 2` unless a point is marked. -/
theorem C47_threaded (hw : ∀ s ∈ ss, w.Setting s.cfg) (hc : ∀ s ∈ ss, s.cfg.Feasible)
    (hn : ∀ s hs k, (hw s hs).count k < 4611686018427387904) (hp : (ss.map fun s => s.cfg.resultPath).Nodup)
    (hb : ∀ s ∈ ss, Terminates (w.blocks s.cfg) s.blocks) (hf : Run.Past w.env ss fs) {kinds : List Bool}
    (hk : kinds.length < 4294967296) {st : Run.State}
    (hr : Run.Reachable w.env (Run.initial kinds fs (Run.program ss)) st) (hpc : st.pc = .finished)
    (ht : st.todo = []) :
    ∀ s hs, ∃ d r m, st.fs s.cfg.resultPath = some d ∧
      Merger.merge d = .ok ⟨0, some (Store.print m, Record.print r)⟩ ∧ OMap.Sorted m ∧
      ∀ k z, (k, z) ∈ m ↔ 0 < z ∧ z = (hw s hs).count k := by
  intro s hs
  obtain ⟨d, _, h1, _, _, r, m, h2, h3, _⟩ := Run.C35_exact_partial
    (Flint.input (fun s hs => ⟨hw s hs, hn s hs⟩) hc hp hb) hf hk hr hpc ht s hs
  exact ⟨d, r, m, h1, h2, (hw s hs).tally (hc s hs) (hn s hs) (hb s hs) h3⟩

/-- C47: the same with several processes. -/
theorem C47_several (hw : ∀ s ∈ ss, w.Setting s.cfg) (hc : ∀ s ∈ ss, s.cfg.Feasible)
    (hn : ∀ s hs k, (hw s hs).count k < 4611686018427387904) (hp : (ss.map fun s => s.cfg.resultPath).Nodup)
    (hb : ∀ s ∈ ss, Terminates (w.blocks s.cfg) s.blocks) (hf : Mpi.Past w.env ss fs) {kinds : List (List Bool)}
    (h0 : kinds ≠ []) (hk : ∀ k ∈ kinds, k.length < 4294967296) {st : Mpi.State}
    (hr : Mpi.Reachable w.env (Mpi.initial kinds fs (Run.program ss)) st) :
    (∀ l, ∃ o, Mpi.step w.env st l = .ok o) ∧ (st.pc = .finished → st.todo = [] →
      ∀ s hs, ∃ d r m, st.fs s.cfg.resultPath = some d ∧
        Merger.merge d = .ok ⟨0, some (Store.print m, Record.print r)⟩ ∧ OMap.Sorted m ∧
        ∀ k z, (k, z) ∈ m ↔ 0 < z ∧ z = (hw s hs).count k) := by
  have hi := Flint.input (fun s hs => ⟨hw s hs, hn s hs⟩) hc hp hb
  refine ⟨fun l => (Mpi.C42_safe hi hf h0 hk hr l).2.2, fun hpc ht s hs => ?_⟩
  obtain ⟨d, _, h1, _, _, r, m, h2, h3, _⟩ := Mpi.C43_exact hi hf h0 hk hr hpc ht s hs
  exact ⟨d, r, m, h1, h2, (hw s hs).tally (hc s hs) (hn s hs) (hb s hs) h3⟩

/-- FLINT for the field of 3 elements. -/
theorem setting_three : ∃ w : Flint, ∀ c : ConfigNode, c.prime = 3 → c.primeExponent = 1 → c.countExponent ≤ 2 →
    Nonempty (w.Setting c) := by
  obtain ⟨gF, table, E, g, rt, hT, hE⟩ := extensions_three
  obtain ⟨rep⟩ := hT.rep
  obtain ⟨fl, hfl⟩ := exists_flint rep
  refine ⟨⟨fun _ _ => ZMod 3, fun _ _ => fl, fun _ _ => .ok table, fun _ e => .ok (rt e)⟩, fun c h1 h2 h3 => ?_⟩
  obtain ⟨p, r, genus, marked, m, path, package⟩ := c
  cases h1
  cases h2
  exact ⟨⟨inferInstance, inferInstance, inferInstance, rep, gF, table, E, g, rt, (by show 3 ≠ 2; decide), rfl, hT, hfl,
    fun k _ _ => by rw [Nat.mul_one], fun k h4 h5 => hE k h4 (le_trans h5 h3)⟩⟩

/-- Some count does not vanish. -/
theorem count_ne (s : w.Setting c) (h1 : c.genus = 1) (h2 : c.prime = 3) : ∃ k, 0 < s.count k := by
  let _ := s.field
  let _ := s.fintype
  let _ := s.decEq
  obtain ⟨hp, hr, hcard, _⟩ := s.built.facts
  replace hcard := hcard.trans (congrArg (· ^ c.primeExponent) h2)
  rw [h2] at hp
  have : Fact (Nat.Prime 3) := ⟨hp⟩
  have hch : CharP (w.F c.prime c.primeExponent) 3 := charP_of_card_eq_prime_pow hcard
  obtain ⟨k, hk⟩ := IsKey.exists s.E c.countExponent (X ^ 3 - X)
  refine ⟨k, ?_⟩
  have := (wanted_finite s.E c.countExponent c.genus c.withMarkedPoint k).1
  refine Nat.card_pos_iff.2 ⟨⟨⟨_, ⟨(galois_poly_separable 3 3 dvd_rfl).squarefree, Or.inl ?_⟩, hk⟩⟩, this⟩
  rw [h1]
  exact FiniteField.X_pow_card_sub_X_natDegree_eq _ (by decide)

/-- A configuration for the field of 3 elements. -/
def threeCfg (marked : Bool) (path : List Char) : ConfigNode := ⟨3, 1, 1, marked, 2, path, 2⟩

theorem threeCfg_feasible (marked : Bool) (path : List Char) : (threeCfg marked path).Feasible :=
  ⟨Nat.one_pos, by show 1 < 1073741823; omega, by show 4 * 1 < 4294967296; omega, by show 0 < 2; omega,
    by show 0 < 2; omega⟩

theorem threeCfg_small (marked : Bool) (path : List Char) (s : w.Setting (threeCfg marked path)) (k : Key) :
    s.count k < 4611686018427387904 := by
  refine lt_of_le_of_lt (s.count_le k) ?_
  show (3 ^ 1) ^ (2 * 1 + 3) < _
  norm_num

/-- Hypotheses of `C47_threaded` and the other theorems: two sections over the field of 3 elements, with and without a
marked point, where not all numbers vanish. -/
example : ∃ (w : Flint) (ss : List Run.Sect) (hw : ∀ s ∈ ss, w.Setting s.cfg), ss.length = 2 ∧
    (∀ s ∈ ss, s.cfg.Feasible) ∧ (∀ s hs k, (hw s hs).count k < 4611686018427387904) ∧
    (∀ s hs, ∃ k, 0 < (hw s hs).count k) ∧ (ss.map fun s => s.cfg.resultPath).Nodup ∧
    (∀ s ∈ ss, Terminates (w.blocks s.cfg) s.blocks) ∧ ∃ fs, Run.Past w.env ss fs := by
  obtain ⟨w, hw⟩ := setting_three
  have hb : ∀ marked path, ∃ boxes, Terminates (w.blocks (threeCfg marked path)) boxes := fun marked path => by
    obtain ⟨s⟩ := hw (threeCfg marked path) rfl rfl le_rfl
    obtain ⟨boxes, h, _⟩ := C47_blocks s (threeCfg_feasible _ _) (threeCfg_small _ _ s)
    exact ⟨boxes, h⟩
  obtain ⟨b1, hb1⟩ := hb false ['a']
  obtain ⟨b2, hb2⟩ := hb true ['b']
  have hall : ∀ s ∈ [(⟨threeCfg false ['a'], b1⟩ : Run.Sect), ⟨threeCfg true ['b'], b2⟩],
      ∃ marked path, s.cfg = threeCfg marked path := by
    intro s hs
    rcases List.mem_cons.1 hs with rfl | hs
    · exact ⟨_, _, rfl⟩
    · exact ⟨_, _, by rw [List.mem_singleton.1 hs]⟩
  refine ⟨w, [⟨threeCfg false ['a'], b1⟩, ⟨threeCfg true ['b'], b2⟩], fun s hs => (hw s.cfg ?_ ?_ ?_).some, rfl,
    fun s hs => ?_, fun s hs k => ?_, fun s hs => ?_, by simp [threeCfg], fun s hs => ?_, fun _ => none,
    .start _ fun s _ d hd => by cases hd⟩
  · obtain ⟨_, _, h⟩ := hall s hs
    rw [h]
    rfl
  · obtain ⟨_, _, h⟩ := hall s hs
    rw [h]
    rfl
  · obtain ⟨_, _, h⟩ := hall s hs
    rw [h]
    exact le_rfl
  · obtain ⟨_, _, h⟩ := hall s hs
    rw [h]
    exact threeCfg_feasible _ _
  · obtain ⟨m, path, h⟩ := hall s hs
    obtain ⟨cfg, blocks⟩ := s
    cases h
    exact threeCfg_small _ _ _ k
  · obtain ⟨_, _, h⟩ := hall s hs
    exact count_ne _ (by rw [h]; rfl) (by rw [h]; rfl)
  · rcases List.mem_cons.1 hs with rfl | hs
    · exact hb1
    · rw [List.mem_singleton.1 hs]
      exact hb2

end Hycu
