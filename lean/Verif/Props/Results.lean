import Verif.Lemmas.Results
import Verif.Props.Totals

/-!
C67: the results are consistent.
-/

namespace Hycu

open Polynomial Fintype

section
variable {F : Type} [Field F] [Fintype F]

/-- C67: the key of a curve that is asked for is plausible. -/
theorem C67_plausible {E : Nat → Extension F} {m genus : Nat} {marked : Bool} (hodd : card F % 2 = 1)
    (hE : ∀ k, 0 < k → k ≤ m → card (E k).K = card F ^ k) {f : F[X]} (hf : Wanted genus marked f) {k : Key}
    (hk : IsKey E m f k) : Plausible (card F) genus m marked k :=
  hk.plausible hodd hE hf

end

/-- C67: tables of the numbers of polynomials are consistent. -/
theorem C67_table {p r m genus : Nat} (A : FieldFamily p r m) (hp : p % 2 = 1) {marked : Bool} {t : StoreMap}
    (hs : OMap.Sorted t) (ht : ∀ k z, (k, z) ∈ t ↔ 0 < z ∧ z = (A.count genus marked k : Int)) :
    Consistent (p ^ r) genus m marked t := by
  let _ := A.field
  let _ := A.fintype
  rw [← A.card_eq]
  refine census_consistent ?_ (fun k h0 hk => ?_) hs ht
  · rw [A.card_eq, Nat.pow_mod, hp, Nat.one_pow]
  · rw [A.card_ext k h0 hk, A.card_eq, ← pow_mul, Nat.mul_comm r]

theorem Flint.Setting.consistent {w : Flint} {c : ConfigNode} (s : w.Setting c) {t : StoreMap}
    (hs : OMap.Sorted t) (ht : ∀ k z, (k, z) ∈ t ↔ 0 < z ∧ z = (s.count k : Int)) :
    Consistent (c.prime ^ c.primeExponent) c.genus c.countExponent c.withMarkedPoint t := by
  let _ := s.field
  let _ := s.fintype
  let _ := s.decEq
  obtain ⟨hp, hr, h1, _⟩ := s.built.facts
  rw [← h1]
  refine census_consistent (odd_card_of hp s.odd h1 hr).1 (fun k h0 hk => ?_) hs ht
  obtain ⟨_, _, _, _, h10, _⟩ := (s.builtExt k h0 hk).facts s.odd s.built
  rw [h10, h1, ← pow_mul, Nat.mul_comm]

theorem polynomials_pos {w : Flint} {c : ConfigNode} (s : w.Setting c) :
    0 < polynomials (c.prime ^ c.primeExponent) c.genus c.withMarkedPoint := by
  let _ := s.field
  let _ := s.fintype
  let _ := s.decEq
  obtain ⟨_, _, h1, _⟩ := s.built.facts
  have h2 := two_le_card (F := w.F c.prime c.primeExponent)
  rw [← h1]
  have h3 : 0 < (card (w.F c.prime c.primeExponent) - 1) ^ 2 * card (w.F c.prime c.primeExponent) ^ (2 * c.genus) :=
    Nat.mul_pos (Nat.pow_pos (by omega)) (Nat.pow_pos (by omega))
  unfold polynomials
  split
  · exact h3
  · exact Nat.mul_pos h3 (Nat.succ_pos _)

variable {w : Flint} {ss : List Run.Sect} {fs : FileSystem}

/-- C67: what the merger writes after a complete run with one process is consistent (an example that meets the hypotheses,
which are those of `C62_threaded`, is at the end of Props/Totals.lean). -/
theorem C67_threaded (hw : ∀ s ∈ ss, w.Setting s.cfg) (hc : ∀ s ∈ ss, s.cfg.Feasible)
    (hn : ∀ s ∈ ss, polynomials (s.cfg.prime ^ s.cfg.primeExponent) s.cfg.genus s.cfg.withMarkedPoint < 4611686018427387904)
    (hp : (ss.map fun s => s.cfg.resultPath).Nodup)
    (hb : ∀ s ∈ ss, Terminates (w.blocks s.cfg) s.blocks) (hf : Run.Past w.env ss fs) {kinds : List Bool}
    (hk : kinds.length < 4294967296) {st : Run.State}
    (hr : Run.Reachable w.env (Run.initial kinds fs (Run.program ss)) st) (hpc : st.pc = .finished) (ht : st.todo = []) :
    ∀ s ∈ ss, ∃ d r m, st.fs s.cfg.resultPath = some d ∧
      Merger.merge d = .ok ⟨0, some (Store.print m, Record.print r)⟩ ∧ m ≠ [] ∧
      Consistent (s.cfg.prime ^ s.cfg.primeExponent) s.cfg.genus s.cfg.countExponent s.cfg.withMarkedPoint m := by
  intro s hs
  obtain ⟨d, r, m, h1, h2, h3, h4, h5⟩ := (C62_threaded hw hc hn hp hb hf hk hr).2 hpc ht s hs
  refine ⟨d, r, m, h1, h2, ?_, (hw s hs).consistent h3 h4⟩
  rintro rfl
  have h6 := polynomials_pos (hw s hs)
  simp only [List.map_nil, List.sum_nil] at h5
  omega

/-- C67: the same with several processes. -/
theorem C67_several (hw : ∀ s ∈ ss, w.Setting s.cfg) (hc : ∀ s ∈ ss, s.cfg.Feasible)
    (hn : ∀ s ∈ ss, polynomials (s.cfg.prime ^ s.cfg.primeExponent) s.cfg.genus s.cfg.withMarkedPoint < 4611686018427387904)
    (hp : (ss.map fun s => s.cfg.resultPath).Nodup)
    (hb : ∀ s ∈ ss, Terminates (w.blocks s.cfg) s.blocks) (hf : Mpi.Past w.env ss fs) {kinds : List (List Bool)}
    (h0 : kinds ≠ []) (hk : ∀ k ∈ kinds, k.length < 4294967296) {st : Mpi.State}
    (hr : Mpi.Reachable w.env (Mpi.initial kinds fs (Run.program ss)) st) (hpc : st.pc = .finished) (ht : st.todo = []) :
    ∀ s ∈ ss, ∃ d r m, st.fs s.cfg.resultPath = some d ∧
      Merger.merge d = .ok ⟨0, some (Store.print m, Record.print r)⟩ ∧ m ≠ [] ∧
      Consistent (s.cfg.prime ^ s.cfg.primeExponent) s.cfg.genus s.cfg.countExponent s.cfg.withMarkedPoint m := by
  intro s hs
  obtain ⟨d, r, m, h1, h2, h3, h4, h5⟩ := (C62_several hw hc hn hp hb hf h0 hk hr).2 hpc ht s hs
  refine ⟨d, r, m, h1, h2, ?_, (hw s hs).consistent h3 h4⟩
  rintro rfl
  have h6 := polynomials_pos (hw s hs)
  simp only [List.map_nil, List.sum_nil] at h5
  omega

/-- The results for curves of genus 1 over the field of 3 elements and counts over it and the field of 9 elements. -/
def resultsThree : StoreMap :=
  [(⟨[1, 1, 1, 1], [0, -6]⟩, 2), (⟨[1, 1, 2], [-2, -2]⟩, 12), (⟨[1, 1, 2], [0, -6]⟩, 12), (⟨[1, 1, 2], [2, -2]⟩, 12),
    (⟨[1, 3], [-3, 3]⟩, 8), (⟨[1, 3], [-1, -5]⟩, 24), (⟨[1, 3], [1, -5]⟩, 24), (⟨[1, 3], [3, 3]⟩, 8),
    (⟨[2, 2], [0, -6]⟩, 6), (⟨[4], [-2, -2]⟩, 12), (⟨[4], [0, -6]⟩, 12), (⟨[4], [2, -2]⟩, 12)]

/-- A consistent table, whose numbers add up to that of C62. -/
example : Consistent 3 1 2 false resultsThree ∧ (resultsThree.map Prod.snd).sum = polynomials 3 1 false := by
  refine ⟨⟨fun k z h => ⟨?_, ?_, ?_, ?_, ?_, fun n a ha => ?_, fun l n n' a a' hl hn ha ha' => ?_⟩, ?_, ?_, ?_, ?_⟩, by decide⟩
  · have : ∀ x ∈ resultsThree, ∀ d ∈ x.1.ramification, 0 < d := by decide
    exact this _ h
  · have : ∀ x ∈ resultsThree, x.1.ramification.Pairwise (· ≤ ·) := by decide
    exact this _ h
  · have : ∀ x ∈ resultsThree, x.1.ramification.sum = 2 * 1 + 2 := by decide
    exact this _ h
  · simp
  · have : ∀ x ∈ resultsThree, x.1.offsets.length = 2 := by decide
    exact this _ h
  · have hl : ∀ x ∈ resultsThree, x.1.offsets.length = 2 := by decide
    have h1 : ∀ x ∈ resultsThree, ∀ n < 2, ∀ a ∈ x.1.offsets[n]?, ∃ u < 20,
        pointsOf 3 n a = 2 * (u : Nat) + ramifiedOf x.1.ramification (n + 1) ∧
        u + ramifiedOf x.1.ramification (n + 1) ≤ 3 ^ (n + 1) + 1 := by decide
    obtain ⟨u, _, h2⟩ := h1 _ h n (by have := (List.getElem?_eq_some_iff.1 ha).1; rw [hl _ h] at this; exact this) a ha
    exact ⟨u, h2⟩
  · have hlen : ∀ x ∈ resultsThree, x.1.offsets.length = 2 := by decide
    have b1 := (List.getElem?_eq_some_iff.1 ha).1
    have b2 := (List.getElem?_eq_some_iff.1 ha').1
    rw [hlen _ h] at b1 b2
    have hl2 := hl.two_le
    have h3 : n = 0 ∧ n' = 1 ∧ l = 2 := by
      have h4 : l * (n + 1) = l * n + l := Nat.mul_succ l n
      have h5 : n = 0 := by
        by_contra h
        have : 2 * 1 ≤ l * n := Nat.mul_le_mul hl2 (by omega)
        omega
      subst h5
      omega
    obtain ⟨rfl, rfl, rfl⟩ := h3
    have h1 : ∀ x ∈ resultsThree, ∀ a ∈ x.1.offsets[0]?, ∀ a' ∈ x.1.offsets[1]?, ∃ v < 20,
        pointsOf 3 1 a' = pointsOf 3 0 a + (2 : Nat) * (v : Nat) := by decide
    obtain ⟨v, _, h2⟩ := h1 _ h a ha a' ha'
    exact ⟨v, h2⟩
  · have : ∀ x ∈ resultsThree, 0 < x.2 := by decide
    exact fun k z h => this _ h
  · have : ∀ x ∈ resultsThree, (((3 - 1) / 2 : Nat) : Int) ∣ x.2 := by decide
    exact fun k z h => this _ h
  · have : ∀ x ∈ resultsThree, (⟨x.1.ramification, twistedOffsets x.1.offsets⟩, x.2) ∈ resultsThree := by decide
    exact fun k z h => this _ h
  · have : ∀ n < 2, n % 2 = 0 → (resultsThree.map fun x => x.2 * x.1.offsets.getD n 0).sum = 0 := by decide
    exact this

/-- Tables with a wrong entry are not consistent: an offset off by one, and a missing twist. -/
example : ¬ Consistent 3 1 2 false [(⟨[1, 1, 2], [-1, -2]⟩, 12), (⟨[1, 1, 2], [1, -2]⟩, 12)] ∧
    ¬ Consistent 3 1 2 false [(⟨[1, 1, 2], [2, -2]⟩, 12)] := by
  constructor
  · intro h
    obtain ⟨u, h1, _⟩ := (h.plausible _ _ List.mem_cons_self).pairs 0 (-1) rfl
    have : ramifiedOf [1, 1, 2] 1 = 2 := by decide
    simp only [Nat.zero_add, this, pointsOf] at h1
    omega
  · intro h
    have := h.twist _ _ List.mem_cons_self
    revert this
    decide

/-- Hypotheses of `C67_table`: the field of 3 elements alone. -/
example : Nonempty (FieldFamily 3 1 1) := by
  have : Fact (Nat.Prime 3) := ⟨by decide⟩
  exact ⟨⟨ZMod 3, inferInstance, inferInstance, fun _ => ⟨ZMod 3, inferInstance, inferInstance, inferInstance, RingHom.id _⟩,
    by rw [ZMod.card]; rfl, fun k h0 hk => by
      obtain rfl : k = 1 := by omega
      show card (ZMod 3) = _
      rw [ZMod.card]; rfl⟩⟩

end Hycu
