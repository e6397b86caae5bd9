import Verif.Lemmas.ReferenceStore
import Verif.Props.EndToEnd

/-!
C78: the reference stores of the tests, for all primes and genera.
-/

namespace Hycu
namespace Reference

open Polynomial Fintype

variable {p : Nat} [Fact p.Prime] {E : Nat → Extension (ZMod p)}

/-- C78: the script writes for every ramification type and all Hasse-Weil offsets the number of squarefree polynomials that
have them, of degree `2 genus + 1` or `2 genus + 2`, each key once, in the order of the map. -/
theorem C78_reference {S : Sage p E} {genus : Nat} (h : S.Ok genus) (hp2 : p ≠ 2) :
    store S genus = (items S genus).map (fun e => (⟨e.1.1, e.1.2⟩, (e.2 : Int))) ∧ OMap.Sorted (store S genus) ∧
    ∀ k z, (k, z) ∈ store S genus ↔ 0 < z ∧ z = census E genus genus false k := by
  refine ⟨store_eq S genus, ?_, mem_store h hp2⟩
  rw [store_eq]
  exact items_sorted S genus

/-- C78: the comparison of the test succeeds for every odd prime and genus: whatever the order in which blocks are computed
and flushed, the static store is the reference store. -/
theorem C78_test {w : Flint} {c : ConfigNode} (s : w.Setting c) (hc : c.Feasible) (hp : c.prime = p)
    (hr : c.primeExponent = 1) (hm : c.countExponent = c.genus) (hmk : c.withMarkedPoint = false)
    (hn : ∀ k, s.count k < 4611686018427387904) {S : Sage p E} (h : S.Ok c.genus)
    {boxes order : List Block} (hb : Terminates (w.blocks c) boxes) (ho : order.Perm boxes) :
    testRun w c order = .ok (store S c.genus) := by
  obtain ⟨hnd, h1, h2⟩ := s.totals hc hn hb
  have hodd : p ≠ 2 := hp ▸ s.odd
  have hsmall : ∀ b ∈ order, w.env.compute c b = .ok (w.resultOf c b) ∧ ∀ e ∈ w.resultOf c b, Small e.2 := by
    intro b hbo
    have hb' := ho.mem_iff.1 hbo
    refine ⟨(h1 b hb').2.2.1, fun e he => ?_⟩
    exact (Run.Tasks.entry_small (Flint.tasks (ss := [⟨c, boxes⟩])
      (by intro x hx; rw [List.mem_singleton] at hx; subst hx; exact ⟨s, hn⟩)
      (by intro x hx; rw [List.mem_singleton] at hx; subst hx; exact hc)
      (by intro x hx; rw [List.mem_singleton] at hx; subst hx; exact hb)) (s := ⟨c, boxes⟩) (by simp) hb' e he)
  have key : ∀ (o : List Block) (m : StoreMap) (l : List (Key × Int)), Tally m l →
      (∀ b ∈ o, w.env.compute c b = .ok (w.resultOf c b) ∧ ∀ e ∈ w.resultOf c b, Small e.2) →
      ∃ m', o.foldlM (fun s b => do
        let m ← w.env.compute c b
        flush s m) m = .ok m' ∧ Tally m' (l ++ o.flatMap (w.resultOf c)) := by
    intro o
    induction o with
    | nil => intro m l hm _; exact ⟨m, rfl, by simpa using hm⟩
    | cons b o ih =>
      intro m l hm ho
      obtain ⟨m1, h3, h4⟩ := Store.addEntries_tally (w.resultOf c b) hm (ho b (by simp)).2
      obtain ⟨m2, h5, h6⟩ := ih m1 _ h4 fun b' hb' => ho b' (by simp [hb'])
      refine ⟨m2, ?_, by simpa using h6⟩
      rw [List.foldlM_cons, (ho b (by simp)).1, Res.bind_ok, show flush m (w.resultOf c b) = .ok m1 from h3, Res.bind_ok]
      exact h5
  obtain ⟨m, h3, h4⟩ := key order [] [] ⟨OMap.sorted_nil, by intro k z; simp⟩ hsmall
  rw [List.nil_append] at h4
  have h5 : Tally m (boxes.flatMap (w.resultOf c)) := by
    have hpm : (order.flatMap (w.resultOf c)).Perm (boxes.flatMap (w.resultOf c)) := ho.flatMap_right _
    refine h4.congr (fun k => (hpm.map _).mem_iff) fun k => ?_
    exact ((hpm.filter _).map _).sum_eq
  obtain ⟨h6, h7⟩ := s.tally hc hn hb h5
  have h8 := C78_reference h hodd
  show order.foldlM _ [] = _
  rw [h3]
  refine congrArg Res.ok (sorted_ext h6 h8.2.1 fun k z => ?_)
  rw [h7, h8.2.2, count_eq s hp hr rfl hm hmk h]

/-- C78: the file that the merger writes after a complete run with one process is the one for the reference store. -/
theorem C78_merged {w : Flint} {ss : List Run.Sect} {fs : FileSystem} (hw : ∀ s ∈ ss, w.Setting s.cfg)
    (hc : ∀ s ∈ ss, s.cfg.Feasible) (hn : ∀ s hs k, (hw s hs).count k < 4611686018427387904)
    (hp : (ss.map fun s => s.cfg.resultPath).Nodup) (hb : ∀ s ∈ ss, Terminates (w.blocks s.cfg) s.blocks)
    (hf : Run.Past w.env ss fs) {kinds : List Bool} (hk : kinds.length < 4294967296) {st : Run.State}
    (hr : Run.Reachable w.env (Run.initial kinds fs (Run.program ss)) st) (hpc : st.pc = .finished) (ht : st.todo = [])
    {s : Run.Sect} (hs : s ∈ ss) (h1 : s.cfg.prime = p) (h2 : s.cfg.primeExponent = 1)
    (h3 : s.cfg.countExponent = s.cfg.genus) (h4 : s.cfg.withMarkedPoint = false) {S : Sage p E} (h : S.Ok s.cfg.genus) :
    ∃ d r, st.fs s.cfg.resultPath = some d ∧
      Merger.merge d = .ok ⟨0, some (Store.print (store S s.cfg.genus), Record.print r)⟩ := by
  obtain ⟨d, r, m, h5, h6, h7, h8⟩ := C47_threaded hw hc hn hp hb hf hk hr hpc ht s hs
  have h9 := C78_reference h (h1 ▸ (hw s hs).odd)
  obtain rfl : m = store S s.cfg.genus := sorted_ext h7 h9.2.1 fun k z => by
    rw [h8, h9.2.2, count_eq (hw s hs) h1 h2 rfl h3 h4 h]
  exact ⟨d, r, h5, h6⟩

/-- C78: the same for several processes. -/
theorem C78_merged_mpi {w : Flint} {ss : List Run.Sect} {fs : FileSystem} (hw : ∀ s ∈ ss, w.Setting s.cfg)
    (hc : ∀ s ∈ ss, s.cfg.Feasible) (hn : ∀ s hs k, (hw s hs).count k < 4611686018427387904)
    (hp : (ss.map fun s => s.cfg.resultPath).Nodup) (hb : ∀ s ∈ ss, Terminates (w.blocks s.cfg) s.blocks)
    (hf : Mpi.Past w.env ss fs) {kinds : List (List Bool)} (h0 : kinds ≠ []) (hk : ∀ k ∈ kinds, k.length < 4294967296)
    {st : Mpi.State} (hr : Mpi.Reachable w.env (Mpi.initial kinds fs (Run.program ss)) st) (hpc : st.pc = .finished)
    (ht : st.todo = []) {s : Run.Sect} (hs : s ∈ ss) (h1 : s.cfg.prime = p) (h2 : s.cfg.primeExponent = 1)
    (h3 : s.cfg.countExponent = s.cfg.genus) (h4 : s.cfg.withMarkedPoint = false) {S : Sage p E} (h : S.Ok s.cfg.genus) :
    ∃ d r, st.fs s.cfg.resultPath = some d ∧
      Merger.merge d = .ok ⟨0, some (Store.print (store S s.cfg.genus), Record.print r)⟩ := by
  obtain ⟨d, r, m, h5, h6, h7, h8⟩ := (C47_several hw hc hn hp hb hf h0 hk hr).2 hpc ht s hs
  have h9 := C78_reference h (h1 ▸ (hw s hs).odd)
  obtain rfl : m = store S s.cfg.genus := sorted_ext h7 h9.2.1 fun k z => by
    rw [h8, h9.2.2, count_eq (hw s hs) h1 h2 rfl h3 h4 h]
  exact ⟨d, r, h5, h6⟩

/-- What is assumed about Sage can be met, for any extensions of the right sizes. -/
theorem exists_sage {m : Nat} (hE : ∀ n, 0 < n → n ≤ m → card (E n).K = p ^ n) : ∃ S : Sage p E, S.Ok m := by
  classical
  refine ⟨⟨fun n => Finset.univ.toList, fun n x => decide (∃ y, y ^ 2 = x), fun cs => decide (Squarefree (polyOfList cs)),
    fun cs => factorList (polyOfList cs)⟩, hE, fun n _ _ => Finset.nodup_toList _, fun n _ _ x => by simp,
    fun n _ _ x => by simp, fun cs => by simp, fun cs h => factorList_ok h, fun cs f hf => ?_⟩
  obtain ⟨_, _, rfl⟩ := List.mem_map.1 hf
  exact Nat.one_pos

/-- Hypotheses of `C78_test`: curves of genus 2 over the field of 3 elements, with fields of 3 and 9 elements. -/
example : ∃ (w : Flint) (c : ConfigNode) (s : w.Setting c) (E : Nat → Extension (ZMod 3)) (S : Sage 3 E)
    (boxes : List Block), c.prime = 3 ∧ c.primeExponent = 1 ∧ c.countExponent = c.genus ∧ c.genus = 2 ∧
    c.withMarkedPoint = false ∧ c.Feasible ∧ (∀ k, s.count k < 4611686018427387904) ∧ S.Ok c.genus ∧
    Terminates (w.blocks c) boxes ∧ boxes.reverse.Perm boxes := by
  obtain ⟨w, hw⟩ := setting_three
  let c : ConfigNode := ⟨3, 1, 2, false, 2, ['a'], 7⟩
  obtain ⟨s⟩ := hw c rfl rfl le_rfl
  have hc : c.Feasible := ⟨by decide, by decide, by decide, by decide, by decide⟩
  have hn : ∀ k, s.count k < 4611686018427387904 := fun k => by
    refine lt_of_le_of_lt (s.count_le k) ?_
    show (3 ^ 1) ^ (2 * 2 + 3) < _
    norm_num
  obtain ⟨boxes, hb, _⟩ := C47_blocks s hc hn
  let E : Nat → Extension (ZMod 3) := fun n => if n = 1 then ⟨ZMod 3, inferInstance, inferInstance, inferInstance, RingHom.id _⟩
    else ⟨GaloisField 3 2, inferInstance, Fintype.ofFinite _, Classical.decEq _, algebraMap _ _⟩
  obtain ⟨S, hS⟩ := exists_sage (E := E) (m := 2) fun n h0 h2 => by
    have : n = 1 ∨ n = 2 := by omega
    rcases this with rfl | rfl
    · exact ZMod.card 3
    · show @Fintype.card (GaloisField 3 2) _ = 3 ^ 2
      rw [← Nat.card_eq_fintype_card]
      exact GaloisField.card 3 2 (by decide)
  exact ⟨w, c, s, E, S, boxes, rfl, rfl, rfl, rfl, rfl, hc, hn, hS, hb, List.reverse_perm _⟩

end Reference
end Hycu
