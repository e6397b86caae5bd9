import Verif.Lemmas.Related
import Verif.Props.Results
import Verif.Props.Ends
import Verif.Props.MpiEnds

/-!
C70: the results for different configurations fit together.
-/

namespace Hycu

open Polynomial Fintype

section
variable {F : Type} [Field F] [Fintype F]

/-- C70: the key is one of the curve and not of its equation: it does not change if a branch point is moved to infinity, or
from there, by `x ↦ 1/x`. -/
theorem C70_key {E : Nat → Extension F} {m genus : Nat} {f : F[X]} (hf : Wanted genus false f) {k : Key}
    (hk : IsKey E m f k) :
    Wanted genus false (reflect (2 * genus + 2) f) ∧ IsKey E m (reflect (2 * genus + 2) f) k := by
  have hd : f.natDegree = 2 * genus + 1 ∨ f.natDegree = 2 * genus + 2 := by simpa [Wanted] using hf.2
  exact ⟨⟨squarefree_reflect hf.1 hd, by simpa [Wanted] using natDegree_reflect hf.1 hd⟩, hk.reflect hf.1 hd⟩

end

/-- The same fields, with counts over fewer of them. -/
def FieldFamily.cut {p r m n : Nat} (A : FieldFamily p r m) (hn : n ≤ m) : FieldFamily p r n :=
  ⟨A.F, A.field, A.fintype, A.E, A.card_eq, fun k h0 hk => A.card_ext k h0 (le_trans hk hn)⟩

/-- C70: the numbers for fewer extensions are obtained by leaving out the last offsets and adding up. -/
theorem C70_cut_table {p r m n genus : Nat} (A : FieldFamily p r m) (B : FieldFamily p r n) (hn : n ≤ m) {marked : Bool}
    {t t' : StoreMap} (hs : OMap.Sorted t) (ht : ∀ k z, (k, z) ∈ t ↔ 0 < z ∧ z = (A.count genus marked k : Int))
    (hs' : OMap.Sorted t') (ht' : ∀ k z, (k, z) ∈ t' ↔ 0 < z ∧ z = (B.count genus marked k : Int)) : CutTable n t t' := by
  let _ := A.field
  let _ := A.fintype
  refine census_cutTable hs ht hn hs' fun k z => ?_
  rw [ht', C57_independent B (A.cut hn)]
  rfl

/-- C70: the numbers for curves with a marked point are determined by those for all curves. -/
theorem C70_marked_table {p r m genus : Nat} (A B : FieldFamily p r m) {t t' : StoreMap} (hs : OMap.Sorted t)
    (ht : ∀ k z, (k, z) ∈ t ↔ 0 < z ∧ z = (A.count genus false k : Int)) (hs' : OMap.Sorted t')
    (ht' : ∀ k z, (k, z) ∈ t' ↔ 0 < z ∧ z = (B.count genus true k : Int)) : MarkedTable (p ^ r) t t' := by
  let _ := A.field
  let _ := A.fintype
  rw [← A.card_eq]
  refine census_markedTable hs ht hs' fun k z => ?_
  rw [ht', C57_independent B A]
  rfl

/-- The fields of a configuration. -/
theorem Flint.Setting.family {w : Flint} {c : ConfigNode} (s : w.Setting c) :
    ∃ A : FieldFamily c.prime c.primeExponent c.countExponent, ∀ k, s.count k = A.count c.genus c.withMarkedPoint k := by
  let _ := s.field
  let _ := s.fintype
  let _ := s.decEq
  refine ⟨⟨w.F c.prime c.primeExponent, s.field, s.fintype, s.E, s.rep.card_eq, fun k h0 hk => ?_⟩, fun k => rfl⟩
  obtain ⟨_, _, h⟩ := (s.builtExt k h0 hk).built.prime
  exact h

/-- What the merger writes after complete runs. -/
theorem Completed.table {w : Flint} {c : ConfigNode} {d : Dir} (h : Completed w c d) :
    ∃ r t, Merger.merge d = .ok ⟨0, some (Store.print t, Record.print r)⟩ ∧ OMap.Sorted t ∧
      ∃ A : FieldFamily c.prime c.primeExponent c.countExponent,
        ∀ k z, (k, z) ∈ t ↔ 0 < z ∧ z = (A.count c.genus c.withMarkedPoint k : Int) := by
  cases h with
  | threaded ss hj hc fs hf kinds hk st hr hpc ht hd =>
    obtain ⟨s, hs, rfl⟩ := hc
    obtain ⟨d', r, t, h1, h2, h3, h4, _⟩ := (C62_threaded (fun s hs => (hj.setting s hs).some) hj.feasible hj.small
      hj.paths hj.blocks hf hk hr).2 hpc ht s hs
    obtain rfl : d = d' := Option.some.inj (hd.symm.trans h1)
    obtain ⟨A, hA⟩ := (hj.setting s hs).some.family
    exact ⟨r, t, h2, h3, A, fun k z => by rw [h4, hA]⟩
  | several ss hj hc fs hf kinds h0 hk st hr hpc ht hd =>
    obtain ⟨s, hs, rfl⟩ := hc
    obtain ⟨d', r, t, h1, h2, h3, h4, _⟩ := (C62_several (fun s hs => (hj.setting s hs).some) hj.feasible hj.small
      hj.paths hj.blocks hf h0 hk hr).2 hpc ht s hs
    obtain rfl : d = d' := Option.some.inj (hd.symm.trans h1)
    obtain ⟨A, hA⟩ := (hj.setting s hs).some.family
    exact ⟨r, t, h2, h3, A, fun k z => by rw [h4, hA]⟩

section
variable {w w' : Flint} {c c' : ConfigNode} {d d' : Dir}

/-- C70: the results for counts over fewer extensions, otherwise for the same curves, are obtained from the results for more
by leaving out the last offsets and adding up.  Package sizes, paths, the numbers of processes and threads, interruptions and
the presentation of the fields play no role. -/
theorem C70_cut (h : Completed w c d) (h' : Completed w' c' d') (hp : c'.prime = c.prime)
    (hr : c'.primeExponent = c.primeExponent) (hg : c'.genus = c.genus) (hm : c'.withMarkedPoint = c.withMarkedPoint)
    (hn : c'.countExponent ≤ c.countExponent) :
    ∃ r t r' t', Merger.merge d = .ok ⟨0, some (Store.print t, Record.print r)⟩ ∧
      Merger.merge d' = .ok ⟨0, some (Store.print t', Record.print r')⟩ ∧ CutTable c'.countExponent t t' := by
  obtain ⟨r, t, h1, h2, A, h3⟩ := h.table
  obtain ⟨r', t', h1', h2', B, h3'⟩ := h'.table
  obtain ⟨p, e, g, mk, n, path, pk⟩ := c
  obtain ⟨p', e', g', mk', n', path', pk'⟩ := c'
  dsimp only at *
  subst hp hr hg hm
  exact ⟨r, t, r', t', h1, h1', C70_cut_table A B hn h2 h3 h2' h3'⟩

/-- C70: so that the results for the same curves and extensions are the same. -/
theorem C70_same (h : Completed w c d) (h' : Completed w' c' d') (hp : c'.prime = c.prime)
    (hr : c'.primeExponent = c.primeExponent) (hg : c'.genus = c.genus) (hm : c'.withMarkedPoint = c.withMarkedPoint)
    (hn : c'.countExponent = c.countExponent) :
    ∃ r r' t, Merger.merge d = .ok ⟨0, some (Store.print t, Record.print r)⟩ ∧
      Merger.merge d' = .ok ⟨0, some (Store.print t, Record.print r')⟩ := by
  obtain ⟨r, t, h1, h2, A, h3⟩ := h.table
  obtain ⟨r', t', h1', h2', B, h3'⟩ := h'.table
  obtain ⟨p, e, g, mk, n, path, pk⟩ := c
  obtain ⟨p', e', g', mk', n', path', pk'⟩ := c'
  dsimp only at *
  subst hp hr hg hm hn
  obtain rfl : t = t' := sorted_table_ext h2 h2' fun k z => by rw [h3, h3', C57_independent A B]
  exact ⟨r, r', t, h1, h1'⟩

/-- C70: the results with a marked point are determined by those without: among the `q + 1` points of the line, `n` are branch
points of a curve whose ramification type has `n` ones. -/
theorem C70_marked (h : Completed w c d) (h' : Completed w' c' d') (hp : c'.prime = c.prime)
    (hr : c'.primeExponent = c.primeExponent) (hg : c'.genus = c.genus) (hm : c.withMarkedPoint = false)
    (hm' : c'.withMarkedPoint = true) (hn : c'.countExponent = c.countExponent) :
    ∃ r t r' t', Merger.merge d = .ok ⟨0, some (Store.print t, Record.print r)⟩ ∧
      Merger.merge d' = .ok ⟨0, some (Store.print t', Record.print r')⟩ ∧
      MarkedTable (c.prime ^ c.primeExponent) t t' := by
  obtain ⟨r, t, h1, h2, A, h3⟩ := h.table
  obtain ⟨r', t', h1', h2', B, h3'⟩ := h'.table
  obtain ⟨p, e, g, mk, n, path, pk⟩ := c
  obtain ⟨p', e', g', mk', n', path', pk'⟩ := c'
  dsimp only at *
  subst hp hr hg hm hm' hn
  exact ⟨r, t, r', t', h1, h1', C70_marked_table A B h2 h3 h2' h3'⟩

end

/-- Complete runs exist for every job. -/
theorem exists_completed {w : Flint} {ss : List Run.Sect} (hj : w.Job ss) {s : Run.Sect} (hs : s ∈ ss) :
    ∃ d, Completed w s.cfg d := by
  have hi := Flint.input (fun s hs => ⟨(hj.setting s hs).some, (hj.setting s hs).some.count_small
    (hj.feasible s hs).genus_pos (hj.small s hs)⟩) hj.feasible hj.paths hj.blocks
  have hf : Run.Past w.env ss fun _ => none := .start _ fun s _ d hd => by cases hd
  have hz : ∀ s ∈ ss, Run.Nonzero s.cfg := fun s hs => by
    have t := (hj.setting s hs).some
    let _ := t.field
    let _ := t.fintype
    let _ := t.decEq
    obtain ⟨h1, h2, _⟩ := t.built.facts
    have h3 := hj.feasible s hs
    exact ⟨h1.ne_zero, by omega, by have := h3.genus_pos; omega, by have := h3.count_pos; omega,
      by have := h3.package_pos; omega⟩
  obtain ⟨st, h1, h2, h3⟩ := Run.C51_reachable hi hf hz (kinds := [false]) (by decide) (by simp)
  obtain ⟨d, _, _, h4, _⟩ := (C62_threaded (fun s hs => (hj.setting s hs).some) hj.feasible hj.small hj.paths hj.blocks hf
    (by decide) h1).2 h2 h3 s hs
  exact ⟨d, .threaded ss hj ⟨s, hs, rfl⟩ _ hf _ (by decide) st h1 h2 h3 h4⟩

/-- A configuration for curves of genus 1 over the field of 3 elements. -/
def threeNode (marked : Bool) (n : Nat) (path : List Char) (package : Nat) : ConfigNode := ⟨3, 1, 1, marked, n, path, package⟩

theorem threeNode_completed : ∃ w : Flint, ∀ marked n path package, 0 < n → n ≤ 2 → 0 < package →
    ∃ d, Completed w (threeNode marked n path package) d := by
  obtain ⟨w, hw⟩ := setting_three
  refine ⟨w, fun marked n path package h0 hn hpk => ?_⟩
  obtain ⟨s⟩ := hw (threeNode marked n path package) rfl rfl hn
  have hc : (threeNode marked n path package).Feasible :=
    ⟨Nat.one_pos, by show 1 < 1073741823; omega, by show 4 * 1 < 4294967296; omega, h0, hpk⟩
  have hsm : polynomials (3 ^ 1) 1 marked < 4611686018427387904 := by cases marked <;> decide
  obtain ⟨boxes, h, _⟩ := C47_blocks s hc (s.count_small hc.genus_pos hsm)
  have hall : ∀ x ∈ [(⟨threeNode marked n path package, boxes⟩ : Run.Sect)], x = ⟨threeNode marked n path package, boxes⟩ :=
    fun x hx => List.mem_singleton.1 hx
  exact exists_completed (ss := [⟨threeNode marked n path package, boxes⟩]) (s := ⟨threeNode marked n path package, boxes⟩)
    ⟨⟨fun x hx => by rw [hall x hx]; exact ⟨s⟩, fun x hx => by rw [hall x hx]; exact hc,
      fun x hx => by rw [hall x hx]; exact hsm, fun x hx => by rw [hall x hx]; exact h⟩, by simp⟩ List.mem_cons_self

/-- Hypotheses of `C70_cut`, `C70_same` and `C70_marked`: runs with counts over two fields and over one, with packages of 2
and of 3 curves, and with and without a marked point. -/
example : ∃ (w : Flint) (d₁ d₂ d₃ d₄ : Dir), Completed w (threeNode false 2 ['a'] 2) d₁ ∧
    Completed w (threeNode false 1 ['b'] 2) d₂ ∧ Completed w (threeNode false 2 ['c'] 3) d₃ ∧
    Completed w (threeNode true 2 ['d'] 2) d₄ := by
  obtain ⟨w, h⟩ := threeNode_completed
  obtain ⟨d₁, h1⟩ := h false 2 ['a'] 2 (by decide) (by decide) (by decide)
  obtain ⟨d₂, h2⟩ := h false 1 ['b'] 2 (by decide) (by decide) (by decide)
  obtain ⟨d₃, h3⟩ := h false 2 ['c'] 3 (by decide) (by decide) (by decide)
  obtain ⟨d₄, h4⟩ := h true 2 ['d'] 2 (by decide) (by decide) (by decide)
  exact ⟨w, d₁, d₂, d₃, d₄, h1, h2, h3, h4⟩

/-- Hypotheses of `C70_key`: the curve `y^2 = x^3 - x` over the field of 3 elements. -/
example : ∃ (E : Nat → Extension (ZMod 3)) (f : (ZMod 3)[X]) (k : Key), Wanted 1 false f ∧ IsKey E 1 f k := by
  have : Fact (Nat.Prime 3) := ⟨by decide⟩
  obtain ⟨k, hk⟩ := IsKey.exists (F := ZMod 3)
    (fun _ => ⟨ZMod 3, inferInstance, inferInstance, inferInstance, RingHom.id _⟩) 1 (X ^ 3 - X)
  refine ⟨_, _, k, ⟨(galois_poly_separable 3 3 dvd_rfl).squarefree, Or.inl ?_⟩, hk⟩
  exact FiniteField.X_pow_card_sub_X_natDegree_eq _ (by decide)

/-- The table of `Props/Results.lean` with counts over the field of 3 elements only. -/
example : CutTable 1 resultsThree
    [(⟨[1, 1, 1, 1], [0]⟩, 2), (⟨[1, 1, 2], [-2]⟩, 12), (⟨[1, 1, 2], [0]⟩, 12), (⟨[1, 1, 2], [2]⟩, 12), (⟨[1, 3], [-3]⟩, 8),
      (⟨[1, 3], [-1]⟩, 24), (⟨[1, 3], [1]⟩, 24), (⟨[1, 3], [3]⟩, 8), (⟨[2, 2], [0]⟩, 6), (⟨[4], [-2]⟩, 12), (⟨[4], [0]⟩, 12),
      (⟨[4], [2]⟩, 12)] :=
  Tally.self (by unfold OMap.Sorted; decide)

/-- Keys that become equal are merged. -/
example : CutTable 1 [(⟨[1, 5], [0, -2]⟩, 4), (⟨[1, 5], [0, 2]⟩, 6)] [(⟨[1, 5], [0]⟩, 10)] ∧
    ¬ CutTable 1 [(⟨[1, 5], [0, -2]⟩, 4), (⟨[1, 5], [0, 2]⟩, 6)] [(⟨[1, 5], [0]⟩, 6)] := by
  constructor
  · refine ⟨by unfold OMap.Sorted; decide, fun k z => ?_⟩
    show (k, z) ∈ [((⟨[1, 5], [0]⟩, 10) : Key × Int)] ↔ k ∈ [(⟨[1, 5], [0]⟩ : Key), ⟨[1, 5], [0]⟩] ∧ _
    simp only [Prod.mk.injEq, List.mem_cons, List.not_mem_nil, or_false, or_self]
    refine and_congr_right fun h => ?_
    subst h
    rfl
  · intro h
    have := ((h.entry ⟨[1, 5], [0]⟩ 6).1 (by decide)).2
    revert this
    decide

/-- The numbers of curves with a marked point for the table of `Props/Results.lean`, which add up to that of C62. -/
def markedThree : StoreMap :=
  [(⟨[1, 1, 1, 1], [0, -6]⟩, 2), (⟨[1, 1, 2], [-2, -2]⟩, 6), (⟨[1, 1, 2], [0, -6]⟩, 6), (⟨[1, 1, 2], [2, -2]⟩, 6),
    (⟨[1, 3], [-3, 3]⟩, 2), (⟨[1, 3], [-1, -5]⟩, 6), (⟨[1, 3], [1, -5]⟩, 6), (⟨[1, 3], [3, 3]⟩, 2)]

example : MarkedTable 3 resultsThree markedThree ∧ (markedThree.map Prod.snd).sum = polynomials 3 1 true := by
  refine ⟨fun k => ?_, by decide⟩
  by_cases h : k ∈ resultsThree.map Prod.fst
  · revert k
    decide
  · have h1 : ∀ k ∈ markedThree.map Prod.fst, k ∈ resultsThree.map Prod.fst := by decide
    have h' : k ∉ markedThree.map Prod.fst := fun h2 => h (h1 k h2)
    have h0 : ∀ t : StoreMap, k ∉ t.map Prod.fst → total t k = 0 := fun t ht => by
      rw [total, List.filter_eq_nil_iff.2 fun x hx h1 => ht (List.mem_map.2 ⟨x, hx, by simpa using h1⟩)]
      rfl
    rw [h0 _ h, h0 _ h']
    rfl

/-- If the table with a marked point also counted the point at infinity of curves of even degree, they would not fit. -/
example : ¬ MarkedTable 3 resultsThree ((⟨[4], [0, -6]⟩, 6) :: markedThree) := by
  intro h
  have := h ⟨[4], [0, -6]⟩
  revert this
  decide

end Hycu
