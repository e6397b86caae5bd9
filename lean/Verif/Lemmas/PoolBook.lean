import Mathlib.Data.List.Perm.Basic
import Mathlib.Data.List.Nodup
import Mathlib.Data.List.Range
import Mathlib.Tactic.Tauto
import Verif.Lemmas.PoolStep

/-!
The bookkeeping of the thread pool.
-/

namespace Hycu

namespace OMap

variable {K V : Type} [CppLess K] [LawfulLess K] [DecidableEq K]

omit [DecidableEq K] in
theorem sorted_entries_nodup {m : OMap K V} (hs : Sorted m) : m.Nodup := by
  refine hs.imp ?_
  rintro a b h rfl
  rw [LawfulLess.irrefl] at h
  cases h

theorem perm_set {m : OMap K V} (hs : Sorted m) {k : K} {v : V} (h : m.find? k = none) :
    (m.set k v).Perm ((k, v) :: m) := by
  have hk := (find?_eq_none hs).1 h
  refine (List.perm_ext_iff_of_nodup (sorted_entries_nodup (sorted_set hs _ _)) ?_).2 ?_
  · exact List.nodup_cons.2 ⟨hk v, sorted_entries_nodup hs⟩
  · rintro ⟨x, w⟩
    rw [← find?_eq_some (sorted_set hs k v), find?_set hs, List.mem_cons, Prod.mk.injEq]
    split
    · rename_i hx
      subst hx
      simp only [Option.some.injEq, true_and]
      constructor
      · exact fun h => Or.inl h.symm
      · rintro (h | h)
        · exact h.symm
        · exact absurd h (hk w)
    · rename_i hx
      rw [find?_eq_some hs]
      simp [hx]

theorem perm_erase {m : OMap K V} (hs : Sorted m) {k : K} {v : V} (h : m.find? k = some v) :
    m.Perm ((k, v) :: m.erase k) := by
  refine (List.perm_ext_iff_of_nodup (sorted_entries_nodup hs) ?_).2 ?_
  · refine List.nodup_cons.2 ⟨fun h' => ?_, sorted_entries_nodup (sorted_erase hs _)⟩
    exact ((mem_erase hs).1 h').2 rfl
  · rintro ⟨x, w⟩
    rw [List.mem_cons, mem_erase hs]
    constructor
    · intro hx
      by_cases hxk : x = k
      · subst hxk
        rw [← find?_eq_some hs, h] at hx
        cases hx
        exact Or.inl rfl
      · exact Or.inr ⟨hx, hxk⟩
    · rintro (hx | hx)
      · rw [hx]
        exact (find?_eq_some hs).1 h
      · exact hx.1

end OMap

namespace OSet

variable {K : Type} [CppLess K] [LawfulLess K]

theorem perm_insert {s : OSet K} (hs : Sorted s) {k : K} (h : k ∉ s) : (insert s k).Perm (k :: s) := by
  refine (List.perm_ext_iff_of_nodup (sorted_nodup (sorted_insert hs k)) ?_).2 fun x => ?_
  · exact List.nodup_cons.2 ⟨h, sorted_nodup hs⟩
  · rw [mem_insert, List.mem_cons]

theorem perm_erase {s : OSet K} (hs : Sorted s) {k : K} (h : k ∈ s) : s.Perm (k :: erase s k) := by
  refine (List.perm_ext_iff_of_nodup (sorted_nodup hs) ?_).2 fun x => ?_
  · refine List.nodup_cons.2 ⟨fun h' => ?_, sorted_nodup (sorted_erase hs k)⟩
    exact ((mem_erase hs).1 h').2 rfl
  · rw [List.mem_cons, mem_erase hs]
    constructor
    · intro hx
      by_cases hxk : x = k
      · exact Or.inl hxk
      · exact Or.inr ⟨hx, hxk⟩
    · rintro (rfl | hx)
      · exact h
      · exact hx.1

end OSet

namespace Run

/-- The jobs that a thread has in its queue or works on. -/
def Phase.jobs : Phase → List Job
  | .compute j => [j]
  | .report j => [j]
  | _ => []

/-- See `Phase.jobs`. -/
def Thread.jobs (t : Thread) : List Job := t.phase.jobs ++ t.queue

/-- The state of the books: `fl` are blocks that are passed on to a thread, but not yet in the set of assigned
blocks. -/
structure Book (size : Nat) (oc : Nat → Bool) (jobs : Nat → List Job) (pool : ThreadPool) (cpu ocl : Nat)
    (assigned : OSet Block) (fl : List Block) : Prop where
  small : size < 4294967296
  perm : (pool.idle ++ pool.ready ++ pool.busy.map Prod.snd).Perm (List.range size)
  split : ∃ a b, pool.idle = a ++ b ∧ (∀ i ∈ a, oc i = true) ∧ (∀ i ∈ b, oc i = false) ∧ ocl = a.length ∧
    cpu = b.length
  busy_sorted : OMap.Sorted pool.busy
  assigned_sorted : OSet.Sorted assigned
  own : ∀ i, i < size → (jobs i = [] ∧ i ∉ pool.busy.map Prod.snd) ∨
    ∃ j, jobs i = [j] ∧ pool.busy.find? j.block = some i
  blocks : (pool.busy.map Prod.fst ++ pool.finished).Perm (fl ++ assigned)

namespace Book

variable {size : Nat} {oc : Nat → Bool} {jobs : Nat → List Job} {pool : ThreadPool} {cpu ocl : Nat}
  {assigned : OSet Block} {fl : List Block}

theorem nodup (h : Book size oc jobs pool cpu ocl assigned fl) :
    (pool.idle ++ pool.ready ++ pool.busy.map Prod.snd).Nodup := h.perm.nodup_iff.2 List.nodup_range

theorem busy_lt (h : Book size oc jobs pool cpu ocl assigned fl) {b : Block} {i : Nat}
    (hb : pool.busy.find? b = some i) : i < size := by
  rw [← List.mem_range, ← h.perm.mem_iff]
  refine List.mem_append_right _ (List.mem_map.2 ⟨(b, i), OMap.mem_of_find? hb, rfl⟩)

/-- A thread is busy with at most one block. -/
theorem busy_inj (h : Book size oc jobs pool cpu ocl assigned fl) {b b' : Block} {i : Nat}
    (hb : pool.busy.find? b = some i) (hb' : pool.busy.find? b' = some i) : b = b' := by
  have hn : (pool.busy.map Prod.snd).Nodup := (List.nodup_append.1 h.nodup).2.1
  have := List.inj_on_of_nodup_map hn (OMap.mem_of_find? hb) (OMap.mem_of_find? hb') rfl
  exact (Prod.mk.injEq _ _ _ _ ▸ this).1

theorem busy_jobs (h : Book size oc jobs pool cpu ocl assigned fl) {b : Block} {i : Nat}
    (hb : pool.busy.find? b = some i) : ∃ j, jobs i = [j] ∧ j.block = b := by
  rcases h.own i (h.busy_lt hb) with ⟨_, h1⟩ | ⟨j, h1, h2⟩
  · exact absurd (List.mem_map.2 ⟨(b, i), OMap.mem_of_find? hb, rfl⟩) h1
  · exact ⟨j, h1, h.busy_inj h2 hb⟩

theorem report (h : Book size oc jobs pool cpu ocl assigned fl) {i : Nat} (hi : i < size) {j : Job}
    (hj : jobs i = [j]) : ∃ p, pool.finishedBlock j.block = .ok p ∧
      p = { pool with ready := pool.ready ++ [i], finished := pool.finished ++ [j.block],
                      busy := pool.busy.erase j.block } ∧
      Book size oc (Function.update jobs i []) p cpu ocl assigned fl := by
  have hb : pool.busy.find? j.block = some i := by
    rcases h.own i hi with ⟨h1, _⟩ | ⟨j', h1, h2⟩
    · rw [hj] at h1; cases h1
    · rw [hj] at h1; cases h1; exact h2
  have hperm := OMap.perm_erase h.busy_sorted hb
  refine ⟨_, by unfold ThreadPool.finishedBlock; rw [hb], rfl, h.small, ?_, h.split,
    OMap.sorted_erase h.busy_sorted _, h.assigned_sorted, ?_, ?_⟩
  · refine List.Perm.trans ?_ h.perm
    have := hperm.map Prod.snd
    simp only [List.map_cons] at this
    simp only [List.append_assoc]
    exact List.Perm.append_left _ (List.Perm.append_left _ this.symm)
  · intro k hk
    by_cases hki : k = i
    · subst hki
      left
      refine ⟨by rw [Function.update_self], fun hm => ?_⟩
      obtain ⟨⟨b, k'⟩, he, rfl⟩ := List.mem_map.1 hm
      have h1 := (OMap.mem_erase h.busy_sorted).1 he
      exact h1.2 (h.busy_inj ((OMap.find?_eq_some h.busy_sorted).2 h1.1) hb)
    · simp only [Function.update_of_ne hki]
      rcases h.own k hk with ⟨h1, h2⟩ | ⟨j', h1, h2⟩
      · left
        refine ⟨h1, fun hm => h2 ?_⟩
        obtain ⟨e, he, hek⟩ := List.mem_map.1 hm
        exact List.mem_map.2 ⟨e, ((OMap.mem_erase h.busy_sorted).1 he).1, hek⟩
      · right
        refine ⟨j', h1, ?_⟩
        rw [OMap.find?_erase h.busy_sorted, if_neg, h2]
        intro he
        rw [he, hb] at h2
        exact hki (Option.some.inj h2).symm
  · refine List.Perm.trans ?_ h.blocks
    have := hperm.map Prod.fst
    simp only [List.map_cons] at this
    have h2 := List.Perm.append_right pool.finished this
    refine List.Perm.trans ?_ h2.symm
    rw [← List.append_assoc]
    exact (List.perm_append_singleton _ _)

theorem busy_find_none (h : Book size oc jobs pool cpu ocl assigned fl) {b : Block} (hb : b ∉ fl ++ assigned) :
    pool.busy.find? b = none := by
  rw [OMap.find?_eq_none h.busy_sorted]
  intro v hv
  refine hb (h.blocks.mem_iff.1 (List.mem_append_left _ (List.mem_map.2 ⟨_, hv, rfl⟩)))

theorem take_core (h : Book size oc jobs pool cpu ocl assigned fl) {b : Block} (hb : b ∉ fl ++ assigned) (tb : Option Tables)
    {i : Nat} {idle' : List Nat} (hidle : pool.idle.Perm (i :: idle')) {cpu' ocl' : Nat}
    (hsplit : ∃ a b, idle' = a ++ b ∧ (∀ i ∈ a, oc i = true) ∧ (∀ i ∈ b, oc i = false) ∧ ocl' = a.length ∧
    cpu' = b.length) :
    i < size ∧ jobs i = [] ∧
      Book size oc (Function.update jobs i [⟨b, tb⟩]) { pool with idle := idle', busy := pool.busy.set b i }
        cpu' ocl' assigned (b :: fl) := by
  have hi : i < size := by
    rw [← List.mem_range, ← h.perm.mem_iff, List.append_assoc]
    exact List.mem_append_left _ (hidle.mem_iff.2 List.mem_cons_self)
  have hnb : i ∉ pool.busy.map Prod.snd := by
    intro hm
    have := (List.nodup_append.1 h.nodup).2.2 i
      (List.mem_append_left _ (hidle.mem_iff.2 List.mem_cons_self)) i hm
    exact this rfl
  have hji : jobs i = [] := by
    rcases h.own i hi with ⟨h1, _⟩ | ⟨j, _, h1⟩
    · exact h1
    · exact absurd (List.mem_map.2 ⟨_, OMap.mem_of_find? h1, rfl⟩) hnb
  have hperm := OMap.perm_set (v := i) h.busy_sorted (h.busy_find_none hb)
  refine ⟨hi, hji, h.small, ?_, hsplit, OMap.sorted_set h.busy_sorted _ _, h.assigned_sorted, ?_, ?_⟩
  · refine List.Perm.trans ?_ h.perm
    have h1 := hperm.map Prod.snd
    simp only [List.map_cons] at h1
    refine (List.Perm.append_left (idle' ++ pool.ready) h1).trans ?_
    refine List.perm_middle.trans ?_
    rw [List.append_assoc]
    have := List.Perm.append_right (pool.ready ++ pool.busy.map Prod.snd) hidle
    rw [List.append_assoc]
    exact this.symm
  · intro k hk
    by_cases hki : k = i
    · subst hki
      right
      exact ⟨⟨b, tb⟩, by rw [Function.update_self], OMap.find?_set_self h.busy_sorted _ _⟩
    · simp only [Function.update_of_ne hki]
      rcases h.own k hk with ⟨h1, h2⟩ | ⟨j, h1, h2⟩
      · left
        refine ⟨h1, fun hm => ?_⟩
        have := (hperm.map Prod.snd).mem_iff.1 hm
        rcases List.mem_cons.1 this with rfl | hm
        · exact hki rfl
        · exact h2 hm
      · right
        refine ⟨j, h1, ?_⟩
        rw [OMap.find?_set_of_ne h.busy_sorted, h2]
        rintro rfl
        rw [h.busy_find_none hb] at h2
        cases h2
  · have h1 := hperm.map Prod.fst
    simp only [List.map_cons] at h1
    refine (List.Perm.append_right _ h1).trans ?_
    exact List.Perm.cons _ h.blocks

theorem take_opencl (h : Book size oc jobs pool cpu ocl assigned fl) {b : Block} (hb : b ∉ fl ++ assigned)
    (tb : Option Tables) (ho : ocl ≠ 0) : ∃ p i, pool.assign oc b true = .ok (p, i) ∧ i < size ∧ jobs i = [] ∧
      i ∈ pool.idle ∧
      Book size oc (Function.update jobs i [⟨b, tb⟩]) p cpu (u32sub ocl 1) assigned (b :: fl) := by
  obtain ⟨x, y, h1, h2, h3, h4, h5⟩ := h.split
  have hle : pool.idle.length ≤ size := by
    have := h.perm.length_eq
    simp only [List.length_append, List.length_range] at this
    omega
  have hsm := h.small
  cases x with
  | nil => exact absurd h4 ho
  | cons i x =>
    have hi : pool.idle = i :: (x ++ y) := by rw [h1, List.cons_append]
    refine ⟨{ pool with idle := x ++ y, busy := pool.busy.set b i }, i, ?_, ?_⟩
    · unfold ThreadPool.assign
      simp only [if_true, hi, List.head?_cons, List.tail_cons]
      rw [if_pos (h2 i List.mem_cons_self)]
    · have := h.take_core hb tb (i := i) (idle' := x ++ y) (by rw [hi]) (cpu' := cpu) (ocl' := u32sub ocl 1)
        ⟨x, y, rfl, fun k hk => h2 k (List.mem_cons_of_mem _ hk), h3, by
          rw [List.length_cons] at h4
          have : x.length < 4294967296 := by
            rw [hi] at hle
            simp only [List.length_cons, List.length_append] at hle
            omega
          rw [h4]; unfold u32sub; simp, h5⟩
      exact ⟨this.1, this.2.1, by rw [hi]; exact List.mem_cons_self, this.2.2⟩

theorem take_cpu (h : Book size oc jobs pool cpu ocl assigned fl) {b : Block} (hb : b ∉ fl ++ assigned)
    (tb : Option Tables) (ho : cpu ≠ 0) : ∃ p i, pool.assign oc b false = .ok (p, i) ∧ i < size ∧ jobs i = [] ∧
      i ∈ pool.idle ∧
      Book size oc (Function.update jobs i [⟨b, tb⟩]) p (u32sub cpu 1) ocl assigned (b :: fl) := by
  obtain ⟨x, y, h1, h2, h3, h4, h5⟩ := h.split
  have hle : pool.idle.length ≤ size := by
    have := h.perm.length_eq
    simp only [List.length_append, List.length_range] at this
    omega
  have hsm := h.small
  rcases List.eq_nil_or_concat y with rfl | ⟨y, i, rfl⟩
  · exact absurd h5 ho
  · rw [List.concat_eq_append] at h1 h3 h5
    have hi : pool.idle = (x ++ y) ++ [i] := by rw [h1, List.append_assoc]
    refine ⟨{ pool with idle := x ++ y, busy := pool.busy.set b i }, i, ?_, ?_⟩
    · unfold ThreadPool.assign
      rw [hi]
      simp only [Bool.false_eq_true, if_false, List.getLast?_append, List.getLast?_singleton, Option.some_or,
        List.dropLast_concat]
      rw [if_pos (h3 i (by simp))]
    · have := h.take_core hb tb (i := i) (idle' := x ++ y) (by rw [hi]; exact List.perm_append_singleton _ _)
        (cpu' := u32sub cpu 1) (ocl' := ocl)
        ⟨x, y, rfl, h2, fun k hk => h3 k (List.mem_append_left _ hk), h4, by
          rw [List.length_append, List.length_singleton] at h5
          rw [h5]; unfold u32sub; simp⟩
      exact ⟨this.1, this.2.1, by rw [hi]; simp, this.2.2⟩

theorem flushReadyLoop_spec (oc : Nat → Bool) : ∀ (ts a b : List Nat) (cpu ocl : Nat),
    (∀ i ∈ a, oc i = true) → (∀ i ∈ b, oc i = false) → ocl + ts.length < 4294967296 → cpu + ts.length < 4294967296 →
    ∃ a' b', ThreadPool.flushReadyLoop oc ts (a ++ b) cpu ocl =
        (a' ++ b', cpu + (b'.length - b.length), ocl + (a'.length - a.length)) ∧
      (∀ i ∈ a', oc i = true) ∧ (∀ i ∈ b', oc i = false) ∧ (a' ++ b').Perm ((a ++ b) ++ ts) ∧
      a.length ≤ a'.length ∧ b.length ≤ b'.length ∧ a'.length + b'.length = a.length + b.length + ts.length
  | [], a, b, cpu, ocl, h1, h2, _, _ => ⟨a, b, by simp [ThreadPool.flushReadyLoop], h1, h2, by simp, le_rfl, le_rfl, by simp⟩
  | t :: ts, a, b, cpu, ocl, h1, h2, h3, h4 => by
    rw [List.length_cons] at h3 h4
    unfold ThreadPool.flushReadyLoop
    by_cases ht : oc t = true
    · rw [if_pos ht, show u32 (ocl + 1) = ocl + 1 by unfold u32; omega, ← List.cons_append]
      obtain ⟨a', b', h5, h6, h7, h8, h9, h10, h11⟩ := flushReadyLoop_spec oc ts (t :: a) b cpu (ocl + 1)
        (fun i hi => by
          rcases List.mem_cons.1 hi with rfl | hi
          · exact ht
          · exact h1 i hi) h2 (by omega) (by omega)
      rw [List.length_cons] at h9 h11 h5
      refine ⟨a', b', ?_, h6, h7, ?_, by omega, h10, by rw [List.length_cons]; omega⟩
      · rw [h5]
        congr 2
        omega
      · refine h8.trans ?_
        rw [List.cons_append, List.cons_append]
        exact List.perm_middle.symm
    · rw [if_neg ht, show u32 (cpu + 1) = cpu + 1 by unfold u32; omega, List.append_assoc]
      obtain ⟨a', b', h5, h6, h7, h8, h9, h10, h11⟩ := flushReadyLoop_spec oc ts a (b ++ [t]) (cpu + 1) ocl
        h1 (fun i hi => by
          rcases List.mem_append.1 hi with hi | hi
          · exact h2 i hi
          · rw [List.mem_singleton.1 hi]; simpa using ht) (by omega) (by omega)
      rw [List.length_append, List.length_singleton] at h10 h11 h5
      refine ⟨a', b', ?_, h6, h7, ?_, h9, by omega, by rw [List.length_cons]; omega⟩
      · rw [h5]
        congr 2
        omega
      · refine h8.trans ?_
        rw [← List.append_assoc, List.append_assoc]
        exact List.Perm.refl _

theorem flushReady (h : Book size oc jobs pool cpu ocl assigned fl) :
    Book size oc jobs (pool.flushReady oc).1 (u32 (cpu + (pool.flushReady oc).2.1))
      (u32 (ocl + (pool.flushReady oc).2.2)) assigned fl := by
  obtain ⟨a, b, h1, h2, h3, h4, h5⟩ := h.split
  have hlen := h.perm.length_eq
  simp only [List.length_append, List.length_range] at hlen
  have hl := congrArg List.length h1
  rw [List.length_append] at hl
  have hsm := h.small
  obtain ⟨a', b', h6, h7, h8, h9, h10, h11, h12⟩ := flushReadyLoop_spec oc pool.ready a b 0 0 h2 h3 (by omega) (by omega)
  rw [← h1] at h6 h9
  have hf : pool.flushReady oc = ({ pool with idle := a' ++ b', ready := [] }, b'.length - b.length, a'.length - a.length) := by
    unfold ThreadPool.flushReady
    rw [h6]
    simp
  rw [hf]
  simp only
  rw [show u32 (cpu + (b'.length - b.length)) = b'.length by unfold u32; omega,
    show u32 (ocl + (a'.length - a.length)) = a'.length by unfold u32; omega]
  refine ⟨h.small, ?_, ⟨a', b', rfl, h7, h8, rfl, rfl⟩, h.busy_sorted, h.assigned_sorted, h.own, h.blocks⟩
  refine List.Perm.trans ?_ h.perm
  simp only [List.append_nil]
  exact List.Perm.append_right _ h9

theorem eraseFinished_spec : ∀ (bs : List Block) (a : OSet Block) (r : List Block), OSet.Sorted a → (r ++ bs).Perm a →
    ∃ a', eraseFinished bs a = .ok a' ∧ OSet.Sorted a' ∧ r.Perm a'
  | [], a, r, hs, hp => ⟨a, rfl, hs, by simpa using hp⟩
  | b :: bs, a, r, hs, hp => by
    have hb : b ∈ a := hp.mem_iff.1 (by simp)
    have h1 : (r ++ bs).Perm (OSet.erase a b) := by
      have := (List.perm_middle.symm.trans hp).trans (OSet.perm_erase hs hb)
      exact this.cons_inv
    obtain ⟨a', h2, h3, h4⟩ := eraseFinished_spec bs (OSet.erase a b) r (OSet.sorted_erase hs b) h1
    refine ⟨a', ?_, h3, h4⟩
    unfold eraseFinished
    rw [if_pos ((OSet.contains_iff hs).2 hb), h2]

theorem flushFinished (h : Book size oc jobs pool cpu ocl assigned []) :
    ∃ a, eraseFinished pool.finished assigned = .ok a ∧ (∀ b ∈ a, b ∈ assigned) ∧
      Book size oc jobs { pool with finished := [] } cpu ocl a [] := by
  obtain ⟨a, h1, h2, h3⟩ := eraseFinished_spec pool.finished assigned (pool.busy.map Prod.fst) h.assigned_sorted
    (by simpa using h.blocks)
  refine ⟨a, h1, fun b hb => ?_, h.small, h.perm, h.split, h.busy_sorted, h2, h.own, by simpa using h3⟩
  have := h.blocks.mem_iff.1 (List.mem_append_left _ (h3.mem_iff.2 hb))
  simpa using this

theorem insert {b : Block} (h : Book size oc jobs pool cpu ocl assigned [b]) (hb : b ∉ assigned) :
    Book size oc jobs pool cpu ocl (OSet.insert assigned b) [] :=
  ⟨h.small, h.perm, h.split, h.busy_sorted, OSet.sorted_insert h.assigned_sorted b, h.own,
    h.blocks.trans (OSet.perm_insert h.assigned_sorted hb).symm⟩

/-- Nothing is assigned: all threads are idle. -/
theorem quiet (h : Book size oc jobs pool cpu ocl [] []) :
    pool.busy = [] ∧ pool.finished = [] ∧ ∀ i, i < size → jobs i = [] := by
  have h1 := h.blocks
  simp only [List.append_nil] at h1
  have h2 := List.append_eq_nil_iff.1 h1.eq_nil
  have h3 : pool.busy = [] := List.map_eq_nil_iff.1 h2.1
  refine ⟨h3, h2.2, fun i hi => ?_⟩
  rcases h.own i hi with ⟨h4, _⟩ | ⟨j, _, h4⟩
  · exact h4
  · rw [h3] at h4
    cases h4

end Book
end Run
end Hycu
