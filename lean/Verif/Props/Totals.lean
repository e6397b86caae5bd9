import Verif.Lemmas.Totals
import Verif.Props.CurveIterator
import Verif.Props.Conway
import Verif.Props.LocksHang

/-!
C62: the total of all counts.
-/

namespace Hycu

open Polynomial Fintype CurveIterator

section

variable {F : Type} [Field F] [Fintype F]

/-- C62: over a field of `q` elements there are `q^(2g+3) - q^(2g+2) - q^(2g+1) + q^(2g)` squarefree polynomials of degree
`2g+1` or `2g+2`, of which `q^(2g+2) - 2 q^(2g+1) + q^(2g)` have degree `2g+1`. -/
theorem C62_polynomials {genus : Nat} (hg : 0 < genus) :
    Nat.card {f : F[X] // Squarefree f ∧ (f.natDegree = 2 * genus + 1 ∨ f.natDegree = 2 * genus + 2)} +
        card F ^ (2 * genus + 2) + card F ^ (2 * genus + 1) = card F ^ (2 * genus + 3) + card F ^ (2 * genus) ∧
      Nat.card {f : F[X] // Squarefree f ∧ f.natDegree = 2 * genus + 1} + 2 * card F ^ (2 * genus + 1) =
        card F ^ (2 * genus + 2) + card F ^ (2 * genus) := by
  have h1 := card_wanted (F := F) hg false
  have h2 := card_wanted (F := F) hg true
  have e1 : {f : F[X] // Wanted genus false f} =
      {f : F[X] // Squarefree f ∧ (f.natDegree = 2 * genus + 1 ∨ f.natDegree = 2 * genus + 2)} := by
    congr 1
    funext f
    simp [Wanted]
  have e2 : {f : F[X] // Wanted genus true f} = {f : F[X] // Squarefree f ∧ f.natDegree = 2 * genus + 1} := by
    congr 1
    funext f
    simp [Wanted]
  rw [e1] at h1
  rw [e2] at h2
  rw [h1, h2]
  unfold polynomials
  rw [if_neg (by decide), if_pos rfl]
  obtain ⟨q, hq⟩ : ∃ q, card F = q + 1 := ⟨_, (Nat.sub_add_cancel (card_pos (α := F))).symm⟩
  rw [hq, Nat.add_sub_cancel]
  constructor <;> ring

variable [DecidableEq F]

/-- C62: if the multiplicities of the squarefree polynomials that are enumerated are added, and once more for their twists, the
result is the number of all squarefree polynomials of these degrees (for `q = 13` and `g = 2` this is the test in
test/curve_iterator.cc). -/
theorem C62_multiplicities {p r : Nat} {g : F} {table : FqElementTable F} (ht : BuiltFqTable p r g table)
    (hp2 : p ≠ 2) (hq : card F ≤ 2147483648) (genus : Nat) (hg0 : 0 < genus) (hgen : genus < 1073741824)
    (marked : Bool) (package : Nat) (hpk : 0 < package) [∀ f : F[X], Decidable (Squarefree f)] :
    ∃ it Ls, make table genus marked package = .ok it ∧ Terminates (fun n => allPositions n it) Ls ∧
      ∃ mult : List Nat → Nat,
        (∀ v ∈ Ls.flatten, (Curve.make table v >>= fun c =>
          CurveIterator.multiplicity table.prime table.primePower c.rhsSupport) = .ok (mult v)) ∧
        ((Ls.flatten.filter fun v => Squarefree (polyOfList (v.map (eltOf g (card F))))).map fun v => mult v + mult v).sum =
          polynomials (card F) genus marked := by
  obtain ⟨it, Ls, a1, a2, mult, a3, a4⟩ := C09_mass_formula ht hp2 hq genus hg0 hgen marked package hpk
  obtain ⟨hp, hr, hcard, hprim, _⟩ := ht.facts
  refine ⟨it, Ls, a1, a2, mult, a3, ?_⟩
  let φ : F[X] → Nat := fun f => if Squarefree f then 1 else 0
  have hinv : CurveInvariant φ := fun f a b c hb hc => if_congr (squarefree_subst_iff hb hc) rfl rfl
  obtain ⟨ν, hν⟩ : ∃ ν : F, ¬ IsSquare ν := by
    apply FiniteField.exists_nonsquare
    intro h
    rw [FiniteField.even_card_iff_char_two] at h
    have := odd_card_of hp hp2 hcard hr
    omega
  have h0 : ν ≠ 0 := fun h => hν (h ▸ IsSquare.zero)
  have htw : ∀ f : F[X], φ (C ν * f) = φ f := fun f => if_congr (squarefree_twist h0) rfl rfl
  have hcount : ∀ d, ∑ f ∈ polysOfDegree F d, φ f = Nat.card {f : F[X] // Squarefree f ∧ f.natDegree = d} := by
    intro d
    rw [← Finset.card_filter]
    refine (Nat.subtype_card _ fun f => ?_).symm
    rw [Finset.mem_filter, mem_polys]
    exact ⟨fun h => ⟨h.2, h.1.2⟩, fun h => ⟨⟨h.1.ne_zero, h.2⟩, h.1⟩⟩
  have h1 := a4 φ hinv ν hν
  have h2 : ((Ls.flatten.filter fun v => Squarefree (polyOfList (v.map (eltOf g (card F))))).map fun v => mult v + mult v).sum =
      (Ls.flatten.map fun v =>
        let f := polyOfList (v.map (eltOf g (card F)))
        mult v * (φ f + φ (C ν * f))).sum := by
    generalize Ls.flatten = L
    induction L with
    | nil => rfl
    | cons v L ih =>
      rw [List.map_cons, List.sum_cons, ← ih, List.filter_cons]
      simp only [htw]
      by_cases h : Squarefree (polyOfList (v.map (eltOf g (card F))))
      · rw [if_pos (by simpa using h), List.map_cons, List.sum_cons]
        simp only [φ, if_pos h]
        ring
      · rw [if_neg (by simpa using h)]
        simp only [φ, if_neg h]
        ring
  rw [h2, h1, hcount, hcount]
  have h3 := card_squarefree (F := F) (2 * genus - 1)
  have h4 := card_squarefree (F := F) (2 * genus)
  rw [show 2 * genus - 1 + 2 = 2 * genus + 1 by omega, show 2 * genus - 1 + 1 = 2 * genus by omega] at h3
  rw [h3, h4]
  unfold polynomials
  cases marked
  · rw [if_neg (by decide), if_neg (by decide)]
    ring
  · rw [if_pos rfl, if_pos rfl]
    ring

end

section

variable {w : Flint} {ss : List Run.Sect} {fs : FileSystem}

/-- No number is larger than the number of all polynomials. -/
theorem Flint.Setting.count_small {c : ConfigNode} (s : w.Setting c) (hg : 0 < c.genus)
    (h : polynomials (c.prime ^ c.primeExponent) c.genus c.withMarkedPoint < 4611686018427387904) (k : Key) :
    s.count k < 4611686018427387904 := by
  let _ := s.field
  let _ := s.fintype
  let _ := s.decEq
  obtain ⟨_, _, h1, _⟩ := s.built.facts
  rw [← h1] at h
  exact lt_of_le_of_lt (census_le s.E c.countExponent hg c.withMarkedPoint k) h

theorem Flint.Setting.count_sum {c : ConfigNode} (s : w.Setting c) (hg : 0 < c.genus) {t : StoreMap}
    (hs : OMap.Sorted t) (ht : ∀ k z, (k, z) ∈ t ↔ 0 < z ∧ z = s.count k) :
    (t.map Prod.snd).sum = polynomials (c.prime ^ c.primeExponent) c.genus c.withMarkedPoint := by
  let _ := s.field
  let _ := s.fintype
  let _ := s.decEq
  obtain ⟨_, _, h1, _⟩ := s.built.facts
  rw [← h1]
  exact census_sum s.E c.countExponent hg c.withMarkedPoint hs ht

/-- C62: if the numbers of all polynomials of the configurations are less than `2^62`, then nothing overflows, and the numbers
that the merger writes after a complete run with one process are those of C47 and add up to the number of all squarefree
polynomials of these degrees. -/
theorem C62_threaded (hw : ∀ s ∈ ss, w.Setting s.cfg) (hc : ∀ s ∈ ss, s.cfg.Feasible)
    (hn : ∀ s ∈ ss, polynomials (s.cfg.prime ^ s.cfg.primeExponent) s.cfg.genus s.cfg.withMarkedPoint < 4611686018427387904)
    (hp : (ss.map fun s => s.cfg.resultPath).Nodup)
    (hb : ∀ s ∈ ss, Terminates (w.blocks s.cfg) s.blocks) (hf : Run.Past w.env ss fs) {kinds : List Bool}
    (hk : kinds.length < 4294967296) {st : Run.State}
    (hr : Run.Reachable w.env (Run.initial kinds fs (Run.program ss)) st) :
    (∀ l, ∃ o, Run.step w.env st l = .ok o) ∧ (st.pc = .finished → st.todo = [] →
      ∀ s hs, ∃ d r m, st.fs s.cfg.resultPath = some d ∧
        Merger.merge d = .ok ⟨0, some (Store.print m, Record.print r)⟩ ∧ OMap.Sorted m ∧
        (∀ k z, (k, z) ∈ m ↔ 0 < z ∧ z = (hw s hs).count k) ∧
        (m.map Prod.snd).sum = polynomials (s.cfg.prime ^ s.cfg.primeExponent) s.cfg.genus s.cfg.withMarkedPoint) := by
  have hn' := fun s hs k => (hw s hs).count_small (hc s hs).genus_pos (hn s hs) k
  refine ⟨C47_safe hw hc hn' hp hb hf hk hr, fun hpc ht s hs => ?_⟩
  obtain ⟨d, r, m, h1, h2, h3, h4⟩ := C47_threaded hw hc hn' hp hb hf hk hr hpc ht s hs
  exact ⟨d, r, m, h1, h2, h3, h4, (hw s hs).count_sum (hc s hs).genus_pos h3 h4⟩

/-- C62: the same with several processes. -/
theorem C62_several (hw : ∀ s ∈ ss, w.Setting s.cfg) (hc : ∀ s ∈ ss, s.cfg.Feasible)
    (hn : ∀ s ∈ ss, polynomials (s.cfg.prime ^ s.cfg.primeExponent) s.cfg.genus s.cfg.withMarkedPoint < 4611686018427387904)
    (hp : (ss.map fun s => s.cfg.resultPath).Nodup)
    (hb : ∀ s ∈ ss, Terminates (w.blocks s.cfg) s.blocks) (hf : Mpi.Past w.env ss fs) {kinds : List (List Bool)}
    (h0 : kinds ≠ []) (hk : ∀ k ∈ kinds, k.length < 4294967296) {st : Mpi.State}
    (hr : Mpi.Reachable w.env (Mpi.initial kinds fs (Run.program ss)) st) :
    (∀ l, ∃ o, Mpi.step w.env st l = .ok o) ∧ (st.pc = .finished → st.todo = [] →
      ∀ s hs, ∃ d r m, st.fs s.cfg.resultPath = some d ∧
        Merger.merge d = .ok ⟨0, some (Store.print m, Record.print r)⟩ ∧ OMap.Sorted m ∧
        (∀ k z, (k, z) ∈ m ↔ 0 < z ∧ z = (hw s hs).count k) ∧
        (m.map Prod.snd).sum = polynomials (s.cfg.prime ^ s.cfg.primeExponent) s.cfg.genus s.cfg.withMarkedPoint) := by
  have hn' := fun s hs k => (hw s hs).count_small (hc s hs).genus_pos (hn s hs) k
  obtain ⟨h1, h2⟩ := C47_several hw hc hn' hp hb hf h0 hk hr
  refine ⟨h1, fun hpc ht s hs => ?_⟩
  obtain ⟨d, r, m, h3, h4, h5, h6⟩ := h2 hpc ht s hs
  exact ⟨d, r, m, h3, h4, h5, h6, (hw s hs).count_sum (hc s hs).genus_pos h5 h6⟩

/-- C62: the same under fair schedules of single instructions that lose no notification and refuse no configuration. -/
theorem C62_fair (hw : ∀ s ∈ ss, w.Setting s.cfg) (hc : ∀ s ∈ ss, s.cfg.Feasible)
    (hn : ∀ s ∈ ss, polynomials (s.cfg.prime ^ s.cfg.primeExponent) s.cfg.genus s.cfg.withMarkedPoint < 4611686018427387904)
    (hp : (ss.map fun s => s.cfg.resultPath).Nodup)
    (hb : ∀ s ∈ ss, Terminates (w.blocks s.cfg) s.blocks) (hf : Run.Past w.env ss fs) {kinds : List Bool}
    (hk : kinds.length < 4294967296) (h0 : kinds ≠ []) {σ : Nat → Locks.Config Locks.Agent Locks.Lock Locks.Var Locks.Val}
    {who : Nat → Option Locks.Agent}
    (hs : Locks.Fair (Locks.runs kinds w.env) Locks.sleeper (Locks.initial kinds fs (Run.program ss)) σ who)
    (ha : ∀ n a, who n = some a → Locks.Alert (σ n) a)
    (ht : ∀ n, ((σ n).mem .main : Locks.MainData).pc = .wait .exit → ((σ n).mem .main : Locks.MainData).todo = []) :
    ∃ n, ∀ m, n ≤ m → ∀ s hs, ∃ d r t, ((σ m).mem .main : Locks.MainData).fs s.cfg.resultPath = some d ∧
      Merger.merge d = .ok ⟨0, some (Store.print t, Record.print r)⟩ ∧ OMap.Sorted t ∧
      (∀ k z, (k, z) ∈ t ↔ 0 < z ∧ z = (hw s hs).count k) ∧
      (t.map Prod.snd).sum = polynomials (s.cfg.prime ^ s.cfg.primeExponent) s.cfg.genus s.cfg.withMarkedPoint := by
  have hn' := fun s hs k => (hw s hs).count_small (hc s hs).genus_pos (hn s hs) k
  obtain ⟨n, h1⟩ := C60_total hw hc hn' hp hb hf hk h0 hs ha ht
  refine ⟨n, fun m hm s hs => ?_⟩
  obtain ⟨d, r, t, h3, h4, h5, h6⟩ := h1 m hm s hs
  exact ⟨d, r, t, h3, h4, h5, h6, (hw s hs).count_sum (hc s hs).genus_pos h5 h6⟩

/-- C62: with Conway polynomials, nothing about the tables is assumed: the numbers over any field of the right size, with any
extensions of the right sizes, add up to the number of all squarefree polynomials. -/
theorem C62_conway (hw : ∀ s ∈ ss, ConwayFlint w s.cfg)
    (A : ∀ s ∈ ss, FieldFamily s.cfg.prime s.cfg.primeExponent s.cfg.countExponent)
    (hc : ∀ s ∈ ss, s.cfg.Feasible)
    (hn : ∀ s ∈ ss, polynomials (s.cfg.prime ^ s.cfg.primeExponent) s.cfg.genus s.cfg.withMarkedPoint < 4611686018427387904)
    (hp : (ss.map fun s => s.cfg.resultPath).Nodup)
    (hb : ∀ s ∈ ss, Terminates (w.blocks s.cfg) s.blocks) (hf : Run.Past w.env ss fs) {kinds : List Bool}
    (hk : kinds.length < 4294967296) {st : Run.State}
    (hr : Run.Reachable w.env (Run.initial kinds fs (Run.program ss)) st) (hpc : st.pc = .finished)
    (ht : st.todo = []) :
    ∀ s hs, ∃ d r m, st.fs s.cfg.resultPath = some d ∧
      Merger.merge d = .ok ⟨0, some (Store.print m, Record.print r)⟩ ∧ OMap.Sorted m ∧
      (∀ k z, (k, z) ∈ m ↔ 0 < z ∧ z = (A s hs).count s.cfg.genus s.cfg.withMarkedPoint k) ∧
      (m.map Prod.snd).sum = polynomials (s.cfg.prime ^ s.cfg.primeExponent) s.cfg.genus s.cfg.withMarkedPoint := by
  have hw' : ∀ s ∈ ss, w.Setting s.cfg := fun s hs => (C57_setting (hw s hs)).some
  intro s hs
  obtain ⟨d, r, m, h1, h2, h3, h4, h5⟩ := (C62_threaded hw' hc hn hp hb hf hk hr).2 hpc ht s hs
  exact ⟨d, r, m, h1, h2, h3, fun k z => by rw [h4 k z, Setting.count_eq (hw' s hs) (A s hs)], h5⟩

/-- Over the field of 13 elements there are `13^7 - 13^6 - 13^5 + 13^4` squarefree polynomials of degree 5 or 6
(test/curve_iterator.cc, lines 64-85). -/
example : polynomials 13 2 false = 57578976 ∧ (57578976 : Int) = 13 ^ 7 - 13 ^ 6 - 13 ^ 5 + 13 ^ 4 := by decide

/-- Hypotheses of `C62_threaded` and `C62_several`: a configuration for the field of 3 elements, with 144 polynomials. -/
example : ∃ (w : Flint) (ss : List Run.Sect) (_ : ∀ s ∈ ss, w.Setting s.cfg), ss.length = 1 ∧
    (∀ s ∈ ss, s.cfg.Feasible) ∧
    (∀ s ∈ ss, polynomials (s.cfg.prime ^ s.cfg.primeExponent) s.cfg.genus s.cfg.withMarkedPoint = 144) ∧
    (ss.map fun s => s.cfg.resultPath).Nodup ∧ (∀ s ∈ ss, Terminates (w.blocks s.cfg) s.blocks) ∧
    (∃ fs, Run.Past w.env ss fs) ∧ ∃ fs, Mpi.Past w.env ss fs := by
  obtain ⟨w, hw⟩ := setting_three
  obtain ⟨s⟩ := hw (threeCfg false ['a']) rfl rfl le_rfl
  obtain ⟨boxes, h, _⟩ := C47_blocks s (threeCfg_feasible _ _) (threeCfg_small _ _ s)
  have hall : ∀ x ∈ [(⟨threeCfg false ['a'], boxes⟩ : Run.Sect)], x = ⟨threeCfg false ['a'], boxes⟩ :=
    fun x hx => List.mem_singleton.1 hx
  refine ⟨w, [⟨threeCfg false ['a'], boxes⟩], fun x hx => ?_, rfl, fun x hx => ?_, fun x hx => ?_, by simp, fun x hx => ?_,
    ⟨fun _ => none, .start _ fun s _ d hd => by cases hd⟩, ⟨fun _ => none, .start _ fun s _ d hd => by cases hd⟩⟩
  · rw [hall x hx]
    exact s
  · rw [hall x hx]
    exact threeCfg_feasible _ _
  · rw [hall x hx]
    show polynomials (3 ^ 1) 1 false = 144
    decide
  · rw [hall x hx]
    exact h

end

end Hycu
