import Mathlib.FieldTheory.Finite.GaloisField
import Verif.Spec.Range
import Verif.Lemmas.Compute
import Verif.Props.Tables
import Verif.Props.CurveIterator
import Verif.Props.Pool
import Verif.Model.Mpi

/-!
C80: what becomes of configurations with fields that are too large, or of characteristic 2.
-/

namespace Hycu

open Fintype (card)

variable {w : Flint} {c : ConfigNode}

theorem Terminates.gives {α : Type} {run : Nat → Res α} {a : α} (h : Terminates run a) : Gives run (.ok a) := h

/-- C80: the table of elements is made if and only if the number of elements fits into `unsigned int`; otherwise the
behaviour is undefined. -/
theorem C80_element_table (h : Presents w c) :
    (c.prime ^ c.primeExponent < 4294967296 → ∃ t, w.fqTable c.prime c.primeExponent = .ok t ∧
      t.prime = c.prime ∧ t.primeExponent = c.primeExponent ∧ t.primePower = c.prime ^ c.primeExponent) ∧
    (4294967296 ≤ c.prime ^ c.primeExponent → w.fqTable c.prime c.primeExponent = .ub) := by
  let _ := h.field
  let _ := h.fintype
  let _ := h.decEq
  have hcard := (h.rep _ h.exponent_pos).card_eq
  refine ⟨fun hs => ?_, fun hb => h.fqTable _ ⟨0, fun n _ => C12_too_large hb _ n⟩⟩
  obtain ⟨t, ht, h1, h2, h3, _⟩ := C12_element_table hcard (hcard ▸ hs) (h.cand c.primeExponent) _
    (h.first _ h.exponent_pos) (h.nonzero _ h.exponent_pos)
  exact ⟨t, h.fqTable _ ht.gives, h1, h2, h3.trans hcard⟩

theorem mapM_of_all {α β : Type} {f : α → Res β} {P : α → β → Prop} : ∀ (l : List α),
    (∀ a ∈ l, ∃ b, f a = .ok b ∧ P a b) → ∃ bs, l.mapM f = .ok bs ∧ List.Forall₂ P l bs
  | [], _ => ⟨[], rfl, .nil⟩
  | a :: l, h => by
    obtain ⟨b, hb, hp⟩ := h a List.mem_cons_self
    obtain ⟨bs, hbs, hps⟩ := mapM_of_all l fun x hx => h x (List.mem_cons_of_mem _ hx)
    exact ⟨b :: bs, by rw [List.mapM_cons, hb, Res.bind_ok, hbs]; rfl, .cons hp hps⟩

theorem forall₂_map {α β : Type} {g : β → α} {l : List α} {bs : List β} (h : List.Forall₂ (fun a b => g b = a) l bs) :
    bs.map g = l := by
  induction h with
  | nil => rfl
  | cons a _ ih => rw [List.map_cons, a, ih]

/-- C80: the reduction tables of a configuration with an odd prime are made, for the exponents `k * primeExponent` with
`k` from `countExponent` down to 1, if the largest field has at most `2^31` elements. -/
theorem C80_reduction_tables (h : Presents w c) (hodd : c.prime ≠ 2)
    (hs : c.prime ^ (c.countExponent * c.primeExponent) ≤ 2147483648) :
    ∃ rts, w.reductionTables c = .ok rts ∧
      rts.map ReductionTable.primeExponent = (List.range c.countExponent).reverse.map fun k => (k + 1) * c.primeExponent := by
  let _ := h.field
  let _ := h.fintype
  let _ := h.decEq
  have hp := (h.rep _ h.exponent_pos).prime
  unfold Flint.reductionTables
  rw [exponents_eq h.exponent_pos h.product, Res.bind_ok]
  obtain ⟨rts, h1, h2⟩ := mapM_of_all (f := w.reductionTable c.prime) (P := fun n rt => rt.primeExponent = n)
    ((List.range c.countExponent).reverse.map fun j => (j + 1) * c.primeExponent) (by
      intro n hn
      obtain ⟨j, hj, rfl⟩ := List.mem_map.1 hn
      have hj := List.mem_range.1 (List.mem_reverse.1 hj)
      have hn : 0 < (j + 1) * c.primeExponent := Nat.mul_pos (by omega) h.exponent_pos
      have hcard := (h.rep _ hn).card_eq
      have hle : c.prime ^ ((j + 1) * c.primeExponent) ≤ c.prime ^ (c.countExponent * c.primeExponent) :=
        Nat.pow_le_pow_right hp.pos (Nat.mul_le_mul_right _ (by omega))
      have h2 : 2 < card (w.F c.prime ((j + 1) * c.primeExponent)) := by
        have := hp.two_le
        have : c.prime ^ 1 ≤ c.prime ^ ((j + 1) * c.primeExponent) := Nat.pow_le_pow_right hp.pos hn
        rw [hcard]
        rw [pow_one] at this
        omega
      obtain ⟨rt, a1, a2, a3, _⟩ := C14_zech (h.rep _ hn) h2 (by rw [hcard]; omega) (h.cand _) _ (h.first _ hn) h.opencl
      exact ⟨rt, h.reductionTable _ hn _ a1.gives, a3⟩)
  exact ⟨rts, h1, (forall₂_map h2)⟩

/-- The first table that is made is the one for the largest field. -/
theorem reductionTables_fails (h : Presents w c) {r : Res ReductionTable} {r' : Res (List ReductionTable)}
    (hr : w.reductionTable c.prime (c.countExponent * c.primeExponent) = r)
    (hf : ∀ g : ReductionTable → Res (List ReductionTable), (r >>= g) = r') : w.reductionTables c = r' := by
  unfold Flint.reductionTables
  rw [exponents_eq h.exponent_pos h.product, Res.bind_ok]
  obtain ⟨m, hm⟩ : ∃ m, c.countExponent = m + 1 := ⟨c.countExponent - 1, by have := h.count_pos; omega⟩
  rw [hm, List.range_succ, List.reverse_append, List.reverse_singleton, List.singleton_append, List.map_cons,
    List.mapM_cons, ← hm, hr]
  exact hf _

/-- C80: with a larger field no reduction tables are made: the behaviour is undefined if its number of elements does not
fit into `unsigned int`, otherwise the program aborts. -/
theorem C80_too_large (h : Presents w c) (hb : 2147483648 < c.prime ^ (c.countExponent * c.primeExponent)) :
    (4294967296 ≤ c.prime ^ (c.countExponent * c.primeExponent) → w.reductionTables c = .ub) ∧
    (c.prime ^ (c.countExponent * c.primeExponent) < 4294967296 → w.reductionTables c = .abort) := by
  let _ := h.field
  let _ := h.fintype
  let _ := h.decEq
  have hn : 0 < c.countExponent * c.primeExponent := Nat.mul_pos h.count_pos h.exponent_pos
  have hcard := (h.rep _ hn).card_eq
  have big := C14_too_large (h.rep _ hn) (by rw [hcard]; exact hb) (h.cand _) h.opencl
  refine ⟨fun h1 => reductionTables_fails h (h.reductionTable _ hn .ub ⟨0, fun n _ => (big n).1 (by rw [hcard]; exact h1)⟩)
    fun _ => rfl, fun h1 => reductionTables_fails h (h.reductionTable _ hn .abort
      ⟨h.index (c.countExponent * c.primeExponent) + 1, fun n hle =>
        (big n).2 (by rw [hcard]; exact h1) _ (h.first _ hn) (by omega)⟩) fun _ => rfl⟩

/-- C80: then every computation of a block fails in the same way. -/
theorem C80_compute (h : Presents w c) (hb : 2147483648 < c.prime ^ (c.countExponent * c.primeExponent)) (b : Block) :
    (4294967296 ≤ c.prime ^ (c.countExponent * c.primeExponent) → w.env.compute c b = .ub) ∧
    (c.prime ^ (c.countExponent * c.primeExponent) < 4294967296 → w.env.compute c b = .abort) := by
  let _ := h.field
  let _ := h.fintype
  have hp := (h.rep _ h.exponent_pos).prime
  have hle : c.prime ^ c.primeExponent ≤ c.prime ^ (c.countExponent * c.primeExponent) :=
    Nat.pow_le_pow_right hp.pos (Nat.le_mul_of_pos_left _ h.count_pos)
  have e : ∀ r : Res (List ReductionTable), w.reductionTables c = r → w.env.compute c b =
      (w.fqTable c.prime c.primeExponent >>= fun table => r >>= fun rts =>
        Compute.block (w.poly c.prime c.primeExponent) table rts b) := by
    rintro r rfl; rfl
  constructor
  · intro h1
    rw [e _ ((C80_too_large h hb).1 h1)]
    by_cases h2 : c.prime ^ c.primeExponent < 4294967296
    · obtain ⟨t, ht, _⟩ := (C80_element_table h).1 h2
      rw [ht]; rfl
    · rw [(C80_element_table h).2 (by omega)]; rfl
  · intro h1
    rw [e _ ((C80_too_large h hb).2 h1)]
    obtain ⟨t, ht, _⟩ := (C80_element_table h).1 (by omega)
    rw [ht]; rfl

/-- C80: for the prime 2 the main function aborts before it assigns a block. -/
theorem C80_two (h : Presents w c) (h2 : c.prime = 2) (hs : c.prime ^ c.primeExponent < 4294967296) (n : Nat) :
    w.blocks c n = .abort := by
  let _ := h.field
  let _ := h.fintype
  let _ := h.decEq
  obtain ⟨t, ht, hp, _⟩ := (C80_element_table h).1 hs
  unfold Flint.blocks
  rw [ht, Res.bind_ok, C08_exits t c.genus c.withMarkedPoint c.packageSize (.inl (hp.trans h2))]
  rfl

/-- C80: a configuration whose fields are too large for the main function: the behaviour is undefined. -/
theorem C80_blocks (h : Presents w c) (hb : 4294967296 ≤ c.prime ^ c.primeExponent) (n : Nat) : w.blocks c n = .ub := by
  unfold Flint.blocks
  rw [(C80_element_table h).2 hb]
  rfl

/-- C80: if the product of the exponents, which is computed in `unsigned int`, is a multiple of `2^32`, no reduction table
is made at all, and this is not noticed. -/
theorem C80_wraps (w : Flint) (h : 4294967296 ∣ c.countExponent * c.primeExponent) : w.reductionTables c = .ok [] := by
  have h0 : u32 (c.countExponent * c.primeExponent) = 0 := Nat.mod_eq_zero_of_dvd h
  unfold Flint.reductionTables Compute.exponents
  rw [h0]
  rfl

namespace Run

variable {env : Env} {kinds : List Bool} {fs : FileSystem} {ss : List Sect} {st : State}

theorem flushed_ok {st₀ : State} (h0 : st₀.log = []) (hr : Reachable env st₀ st) {i : Nat} {j : Job}
    (hm : .flushed i j ∈ st.log) : ∃ tb m, j.tables = some tb ∧ env.compute tb.cfg j.block = .ok m := by
  induction hr with
  | refl => rw [h0] at hm; cases hm
  | step l _ hs ih =>
    have ht := step_trans hs
    clear hs
    generalize l.actor = a at ht
    cases ht with
    | compute k hi j' hp tb ht m hc p hf =>
      rcases List.mem_cons.1 hm with h | h
      · cases h
        exact ⟨tb, m, ht, hc⟩
      · exact ih h
    | _ => first
      | exact ih hm
      | (rcases List.mem_cons.1 hm with h | h
         · cases h
         · exact ih h)
      | (rcases List.mem_append.1 hm with h | h
         · obtain ⟨b, _, hb⟩ := List.mem_map.1 (List.mem_reverse.1 h)
           cases hb
         · exact ih h)
      | (refine ih ?_
         revert hm
         unfold wake
         split <;> exact id)

/-- C80: a thread that has a block of such a configuration ends the program, or its behaviour is undefined. -/
theorem C80_thread (h : Presents w c) (hb : 2147483648 < c.prime ^ (c.countExponent * c.primeExponent)) {i : Nat} {j : Job}
    {tb : Tables} (hi : i < st.size) (hp : (st.thr i).phase = .compute j) (ht : j.tables = some tb) (hc : tb.cfg = c) :
    step w.env st (.thread i) =
      if 4294967296 ≤ c.prime ^ (c.countExponent * c.primeExponent) then .ub else .abort := by
  have e := C80_compute h hb j.block
  simp only [step, if_pos hi, threadStep, hp, ht, hc]
  split
  · rename_i h1
    rw [e.1 h1]; rfl
  · rename_i h1
    rw [e.2 (by omega)]; rfl

/-- C80: in a run no block of such a configuration is ever added to the results; and if the run comes to its end, none was
assigned (because all of them were found in the records). -/
theorem C80_run (h : Presents w c) (hb : 2147483648 < c.prime ^ (c.countExponent * c.primeExponent))
    (hk : kinds.length < 4294967296) (hd : ∀ s ∈ ss, s.blocks.Nodup)
    (hr : Reachable w.env (initial kinds fs (program ss)) st) :
    (∀ i j tb, (i, j) ∈ flushedJobs st.log → j.tables = some tb → tb.cfg ≠ c) ∧
    (st.pc = .finished → ∀ i j tb, (i, j) ∈ assignedJobs st.log → j.tables = some tb → tb.cfg ≠ c) := by
  have key : ∀ i j tb, (i, j) ∈ flushedJobs st.log → j.tables = some tb → tb.cfg ≠ c := by
    intro i j tb hm ht hc
    obtain ⟨e, he, h1⟩ := List.mem_filterMap.1 hm
    cases e <;> simp only [reduceCtorEq, Option.some.injEq, Prod.mk.injEq] at h1
    obtain ⟨rfl, rfl⟩ := h1
    obtain ⟨tb', m, h2, h3⟩ := flushed_ok rfl hr he
    obtain rfl := Option.some.inj (ht.symm.trans h2)
    rw [hc] at h3
    have e := fun b => C80_compute h hb b
    by_cases h1 : 4294967296 ≤ c.prime ^ (c.countExponent * c.primeExponent)
    · rw [(e _).1 h1] at h3; cases h3
    · rw [(e _).2 (by omega)] at h3; cases h3
  exact ⟨key, fun hf i j tb hm ht => key i j tb (((C38_end hk hd hr hf).2.1.mem_iff).2 hm) ht⟩

end Run

/-- C80: the same for a thread of a process of hycu-mpi. -/
theorem Mpi.C80_thread (h : Presents w c) (hb : 2147483648 < c.prime ^ (c.countExponent * c.primeExponent)) {st : Mpi.State}
    {ix i : Nat} {j : Run.Job} {tb : Run.Tables} (hx : ix < st.nprocs) (hi : i < (st.procs ix).size)
    (hp : ((st.procs ix).thr i).phase = .compute j) (ht : j.tables = some tb) (hc : tb.cfg = c) :
    Mpi.step w.env st (.thread ix i) =
      if 4294967296 ≤ c.prime ^ (c.countExponent * c.primeExponent) then .ub else .abort := by
  have e := C80_compute h hb j.block
  simp only [Mpi.step, if_pos (And.intro hx hi), Mpi.Proc.threadStep, hp, ht, hc]
  split
  · rename_i h1
    rw [e.1 h1]; rfl
  · rename_i h1
    rw [e.2 (by omega)]; rfl

/-! ### Non-trivial instances -/

section

variable (p : Nat) [Fact p.Prime]

noncomputable instance (n : Nat) : Fintype (GaloisField p n) := Fintype.ofFinite _

/-- A generator of the field of `p^n` elements. -/
noncomputable def galoisGen (n : Nat) : GaloisField p n := (exists_primitive (F := GaloisField p n)).choose

/-- A coefficient presentation of the field of `p^n` elements. -/
theorem galois_rep (n : Nat) (hn : 0 < n) : Nonempty (FqRep (GaloisField p n) p n) :=
  exists_fqRep Fact.out hn (by rw [← Nat.card_eq_fintype_card]; exact GaloisField.card p n (by omega))

open Classical in
/-- The outcome of a loop, if it has one. -/
noncomputable def outcome {α : Type} (run : Nat → Res α) : Res α := if h : ∃ r, Gives run r then h.choose else .diverge

theorem outcome_eq {α : Type} {run : Nat → Res α} {r : Res α} (h : Gives run r) : outcome run = r := by
  have he : ∃ r, Gives run r := ⟨r, h⟩
  unfold outcome
  rw [dif_pos he]
  obtain ⟨N, hN⟩ := he.choose_spec
  obtain ⟨M, hM⟩ := h
  exact (hN (max N M) (le_max_left ..)).symm.trans (hM (max N M) (le_max_right ..))

open Classical in
/-- FLINT with the fields of characteristic `p`. -/
noncomputable def galoisFlint (fl : ∀ n, FlintPoly (GaloisField p n)) : Flint where
  F _ n := GaloisField p n
  poly _ n := fl n
  fqTable _ n := outcome (FqElementTable.make (fun _ => galoisGen p n) p n)
  reductionTable _ n := if hn : 0 < n then
    outcome (ReductionTable.make (galois_rep p n hn).some.coeff (fun _ => galoisGen p n) p n false) else .diverge

open Classical in
/-- The hypotheses of C80 are met for every prime and all exponents whose product fits. -/
noncomputable def galoisPresents (fl : ∀ n, FlintPoly (GaloisField p n)) (c : ConfigNode) (hp : c.prime = p)
    (hr : 0 < c.primeExponent) (hm : 0 < c.countExponent) (h : c.countExponent * c.primeExponent < 4294967296) :
    Presents (galoisFlint p fl) c where
  field _ := inferInstanceAs (Field (GaloisField p _))
  fintype _ := inferInstanceAs (Fintype (GaloisField p _))
  decEq _ := Classical.decEq _
  rep n hn := hp ▸ (galois_rep p n hn).some
  cand n _ := galoisGen p n
  index _ := 0
  first n _ := ⟨(exists_primitive (F := GaloisField p n)).choose_spec, fun j hj => absurd hj (Nat.not_lt_zero j)⟩
  nonzero n _ j hj := absurd hj (Nat.not_lt_zero j)
  opencl := false
  exponent_pos := hr
  count_pos := hm
  product := h
  fqTable r h := by
    subst hp
    exact outcome_eq h
  reductionTable n hn r h := by
    subst hp
    show dite _ _ _ = r
    rw [dif_pos hn]
    exact outcome_eq h

end

/-- `C80_wraps` with numbers that can be in a configuration file. -/
example : ∃ c : ConfigNode, 4294967296 ∣ c.countExponent * c.primeExponent ∧ c.countExponent < 2147483648 ∧
    c.primeExponent = 4 ∧ ∀ fs create, (fs c.resultPath).isSome → c.verify fs create = .ok (fs, true) :=
  ⟨⟨3, 4, 1, false, 1073741824, ['d'], 1⟩, by decide, by decide, rfl, fun fs create h => by
    simp only [ConfigNode.verify]
    rw [if_pos (by decide), if_pos h]
    rfl⟩

/-- Configurations that `verify` accepts: the prime 3 with fields up to `3^20` elements (the program aborts), and up to
`3^21` (undefined behaviour); the prime 2. -/
example : ∃ (w : Flint) (a b d : ConfigNode), Nonempty (Presents w a) ∧ Nonempty (Presents w b) ∧
    (∀ fs create, (fs a.resultPath).isSome → a.verify fs create = .ok (fs, true)) ∧
    (∀ fs create, (fs b.resultPath).isSome → b.verify fs create = .ok (fs, true)) ∧
    (∀ fs create, (fs d.resultPath).isSome → d.verify fs create = .ok (fs, true)) ∧
    2147483648 < a.prime ^ (a.countExponent * a.primeExponent) ∧
    a.prime ^ (a.countExponent * a.primeExponent) < 4294967296 ∧
    4294967296 ≤ b.prime ^ (b.countExponent * b.primeExponent) ∧
    d.prime = 2 ∧ ∃ w', Nonempty (Presents w' d) := by
  have : Fact (Nat.Prime 3) := ⟨by decide⟩
  have : Fact (Nat.Prime 2) := ⟨by decide⟩
  refine ⟨galoisFlint 3 fun _ => ⟨fun _ _ => 0, fun _ => true, fun _ => true, fun _ => [], fun _ => []⟩,
    ⟨3, 1, 1, false, 20, ['d'], 1⟩, ⟨3, 1, 1, false, 21, ['d'], 1⟩, ⟨2, 1, 1, false, 1, ['d'], 1⟩,
    ⟨galoisPresents 3 _ _ rfl (by decide) (by decide) (by decide)⟩,
    ⟨galoisPresents 3 _ _ rfl (by decide) (by decide) (by decide)⟩, ?_, ?_, ?_, by decide, by decide, by decide, rfl,
    galoisFlint 2 fun _ => ⟨fun _ _ => 0, fun _ => true, fun _ => true, fun _ => [], fun _ => []⟩,
    ⟨galoisPresents 2 _ _ rfl (by decide) (by decide) (by decide)⟩⟩ <;>
  · intro fs create h
    simp only [ConfigNode.verify]
    rw [if_pos (by decide), if_pos h]
    rfl

end Hycu
