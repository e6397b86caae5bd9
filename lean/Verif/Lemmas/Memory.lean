import Verif.Lemmas.Tables
import Verif.Model.Memory

/-!
Memory with some additional cells.
-/

namespace Hycu.Memory

variable {I : Type} {U : I → Type}

/-- `h` is `H` with the additional cells `l`. -/
structure Ext (H : Heap U) (l : List (Nat × Obj U)) (h : Heap U) : Prop where
  nodup : (l.map Prod.fst).Nodup
  fresh : ∀ p ∈ l.map Prod.fst, p ∉ H
  get : ∀ p o, (p, o) ∈ l → h.lookup p = some o
  other : ∀ p, p ∉ l.map Prod.fst → h.lookup p = H.lookup p

namespace Ext

variable {H h : Heap U} {l l' l₁ l₂ : List (Nat × Obj U)} {p : Nat} {o o' : Obj U}

theorem nil (H : Heap U) : Ext H [] H :=
  ⟨List.nodup_nil, by simp, by simp, fun _ _ => rfl⟩

theorem eq_of_nil (e : Ext H [] h) : h = H := Finmap.ext_lookup fun p => e.other p (by simp)

theorem perm (e : Ext H l h) (hp : l.Perm l') : Ext H l' h where
  nodup := (hp.map Prod.fst).nodup_iff.1 e.nodup
  fresh p hp' := e.fresh p ((hp.map Prod.fst).mem_iff.2 hp')
  get p o h := e.get p o (hp.mem_iff.2 h)
  other p h := e.other p fun h' => h ((hp.map Prod.fst).mem_iff.1 h')

theorem lookup (e : Ext H (l₁ ++ (p, o) :: l₂) h) : h.lookup p = some o := e.get p o (by simp)

/-- A new cell. -/
theorem new (e : Ext H l h) (A : Allocator U) : Ext H ((A.pick h, .raw) :: l) (Memory.new A h).2 where
  nodup := by
    rw [List.map_cons, List.nodup_cons]
    refine ⟨fun h' => ?_, e.nodup⟩
    obtain ⟨⟨p, o⟩, h1, h2⟩ := List.mem_map.1 h'
    have h3 : p = A.pick h := h2
    rw [h3] at h1
    exact A.fresh h (Finmap.mem_of_lookup_eq_some (e.get _ o h1))
  fresh p hp := by
    rcases List.mem_cons.1 hp with h1 | h1
    · intro h2
      by_cases h3 : p ∈ l.map Prod.fst
      · exact e.fresh p h3 h2
      · obtain ⟨b, hb⟩ := Finmap.mem_iff.1 h2
        rw [← e.other p h3] at hb
        subst h1
        exact A.fresh h (Finmap.mem_of_lookup_eq_some hb)
    · exact e.fresh p h1
  get p o h' := by
    rcases List.mem_cons.1 h' with h1 | h1
    · cases h1
      exact Finmap.lookup_insert _
    · rw [Memory.new, Finmap.lookup_insert_of_ne, e.get p o h1]
      rintro rfl
      exact A.fresh h (Finmap.mem_of_lookup_eq_some (e.get _ o h1))
  other p h' := by
    rw [List.map_cons, List.mem_cons, not_or] at h'
    rw [Memory.new, Finmap.lookup_insert_of_ne _ h'.1, e.other p h'.2]

/-- Assignment. -/
theorem store (e : Ext H (l₁ ++ (p, o) :: l₂) h) (o' : Obj U) : Ext H (l₁ ++ (p, o') :: l₂) (h.insert p o') where
  nodup := by
    have := e.nodup
    simpa using this
  fresh q hq := e.fresh q (by simpa using hq)
  get q x hx := by
    have hn := e.nodup
    rw [List.map_append, List.map_cons, List.nodup_middle, List.nodup_cons] at hn
    by_cases hqp : q = p
    · subst hqp
      rw [Finmap.lookup_insert]
      have : x = o' := by
        rcases List.mem_append.1 hx with h1 | h1
        · exact absurd (List.mem_append_left _ (List.mem_map_of_mem (f := Prod.fst) h1)) hn.1
        · rcases List.mem_cons.1 h1 with h2 | h2
          · cases h2
            rfl
          · exact absurd (List.mem_append_right _ (List.mem_map_of_mem (f := Prod.fst) h2)) hn.1
      rw [this]
    · rw [Finmap.lookup_insert_of_ne _ hqp]
      refine e.get q x ?_
      rcases List.mem_append.1 hx with h1 | h1
      · exact List.mem_append_left _ h1
      · rcases List.mem_cons.1 h1 with h2 | h2
        · cases h2
          exact absurd rfl hqp
        · exact List.mem_append_right _ (List.mem_cons_of_mem _ h2)
  other q hq := by
    have hqp : q ≠ p := by
      rintro rfl
      simp at hq
    rw [Finmap.lookup_insert_of_ne _ hqp]
    exact e.other q (by simpa using hq)

/-- A cell is given back. -/
theorem erase (e : Ext H (l₁ ++ (p, o) :: l₂) h) : Ext H (l₁ ++ l₂) (h.erase p) := by
  have hn := e.nodup
  rw [List.map_append, List.map_cons, List.nodup_middle, List.nodup_cons, ← List.map_append] at hn
  refine ⟨hn.2, fun q hq => e.fresh q ?_, fun q x hx => ?_, fun q hq => ?_⟩
  · rw [List.map_append, List.mem_append] at hq
    simp only [List.map_append, List.map_cons, List.mem_append, List.mem_cons]
    tauto
  · rw [Finmap.lookup_erase_ne]
    · refine e.get q x ?_
      simp only [List.mem_append, List.mem_cons] at hx ⊢
      tauto
    · intro hqp
      rw [← hqp] at hn
      exact hn.1 (List.mem_map.2 ⟨_, hx, rfl⟩)
  · by_cases hqp : q = p
    · subst hqp
      rw [Finmap.lookup_erase]
      exact (Finmap.lookup_eq_none.2 (e.fresh q (by simp))).symm
    · rw [Finmap.lookup_erase_ne hqp]
      refine e.other q fun h' => hq ?_
      simp only [List.map_append, List.map_cons, List.mem_append, List.mem_cons] at h' ⊢
      tauto

/-- The memory to which cells are added may itself have additional cells. -/
theorem trans {H' : Heap U} (e : Ext H l H') (e' : Ext H' l' h) : Ext H (l' ++ l) h := by
  have hd : ∀ p ∈ l'.map Prod.fst, p ∉ l.map Prod.fst := fun p hp hp' => by
    obtain ⟨⟨q, o⟩, h1, h2⟩ := List.mem_map.1 hp'
    subst h2
    exact e'.fresh q hp (Finmap.mem_of_lookup_eq_some (e.get q o h1))
  refine ⟨?_, fun p hp h1 => ?_, fun p o hp => ?_, fun p hp => ?_⟩
  · rw [List.map_append, List.nodup_append]
    exact ⟨e'.nodup, e.nodup, fun a ha b hb hab => hd a ha (hab ▸ hb)⟩
  · rw [List.map_append, List.mem_append] at hp
    by_cases h3 : p ∈ l.map Prod.fst
    · exact e.fresh p h3 h1
    · rcases hp with hp | hp
      · refine e'.fresh p hp ?_
        obtain ⟨b, hb⟩ := Finmap.mem_iff.1 h1
        exact Finmap.mem_of_lookup_eq_some ((e.other p h3).trans hb)
      · exact h3 hp
  · rcases List.mem_append.1 hp with h1 | h1
    · exact e'.get p o h1
    · rw [e'.other p fun h2 => hd p h2 (List.mem_map_of_mem (f := Prod.fst) h1)]
      exact e.get p o h1
  · rw [List.map_append, List.mem_append, not_or] at hp
    rw [e'.other p hp.1, e.other p hp.2]

end Ext

/-! ### The operations -/

section

variable {H h : Heap U} {l l₁ l₂ : List (Nat × Obj U)} {p q r : Nat} {o : Obj U}

theorem delete_ext (e : Ext H (l₁ ++ (p, .raw) :: l₂) h) : ∃ h', delete h p = .ok h' ∧ Ext H (l₁ ++ l₂) h' :=
  ⟨_, by rw [delete, e.lookup], e.erase⟩

theorem init_ext (e : Ext H (l₁ ++ (p, .raw) :: l₂) h) (o : Obj U) :
    ∃ h', init h p o = .ok h' ∧ Ext H (l₁ ++ (p, o) :: l₂) h' :=
  ⟨_, by rw [init, e.lookup], e.store o⟩

theorem make_ext (e : Ext H l h) (A : Allocator U) (o : Obj U) :
    ∃ p h', make A h o = .ok (p, h') ∧ Ext H ((p, o) :: l) h' := by
  obtain ⟨h', h1, h2⟩ := init_ext (l₁ := []) (e.new A) o
  refine ⟨_, h', ?_, h2⟩
  show (init (Memory.new A h).2 (A.pick h) o >>= _) = _
  rw [h1]
  rfl

/-- Objects without context. -/
def Plain : Obj U → Prop
  | .fmpz _ => True
  | .rand => True
  | .ctx _ => True
  | .nmodPoly _ => True
  | .nmodFactor _ => True
  | _ => False

theorem drop_ext (e : Ext H (l₁ ++ (p, o) :: l₂) h) (ho : Plain o) : ∃ h', drop h p = .ok h' ∧ Ext H (l₁ ++ l₂) h' := by
  obtain ⟨h', h1, h2⟩ := delete_ext (e.store .raw)
  refine ⟨h', ?_, h2⟩
  rw [drop, clear, e.lookup]
  cases o <;> first | exact h1 | exact ho.elim

variable [DecidableEq I] {i : I}

theorem useCtx_ok {ctx : Nat} (hc : h.lookup ctx = some (.ctx i)) : useCtx i h ctx = .ok () := by
  rw [useCtx, hc]
  exact if_pos rfl

theorem fqGet_ok {ctx : Nat} {x : U i} (hc : h.lookup ctx = some (.ctx i)) (hp : h.lookup p = some (.fq i x)) :
    fqGet i h ctx p = .ok x := by
  rw [fqGet, useCtx_ok hc, Res.bind_ok, hp]
  exact dif_pos rfl

theorem fqSet_ext {ctx : Nat} {x : U i} (hc : h.lookup ctx = some (.ctx i)) (e : Ext H (l₁ ++ (p, .fq i x) :: l₂) h)
    (y : U i) : ∃ h', fqSet i h ctx p y = .ok h' ∧ Ext H (l₁ ++ (p, .fq i y) :: l₂) h' := by
  refine ⟨_, ?_, e.store _⟩
  rw [fqSet, useCtx_ok hc, Res.bind_ok, e.lookup]
  exact if_pos rfl

theorem fqDrop_ext {ctx : Nat} {x : U i} (hc : h.lookup ctx = some (.ctx i)) (e : Ext H (l₁ ++ (p, .fq i x) :: l₂) h) :
    ∃ h', fqDrop i h ctx p = .ok h' ∧ Ext H (l₁ ++ l₂) h' := by
  obtain ⟨h', h1, h2⟩ := delete_ext (e.store .raw)
  refine ⟨h', ?_, h2⟩
  rw [fqDrop, fqClear, useCtx_ok hc, Res.bind_ok, e.lookup]
  simp only [if_pos]
  exact h1

variable [Field (U i)]

theorem fqMake_aux {ctx : Nat} (A : Allocator U) (hc' : (Memory.new A h).2.lookup ctx = some (.ctx i)) (e : Ext H l h) :
    ∃ p h', fqMake A i h ctx = .ok (p, h') ∧ Ext H ((p, .fq i 0) :: l) h' := by
  obtain ⟨h', h1, h2⟩ := init_ext (l₁ := []) (e.new A) (.fq i 0)
  refine ⟨_, h', ?_, h2⟩
  show (fqInit i (Memory.new A h).2 ctx (A.pick h) >>= _) = _
  rw [fqInit, useCtx_ok hc', Res.bind_ok, h1]
  rfl

theorem fqMake_ext {ctx : Nat} (A : Allocator U) (hc : (ctx, .ctx i) ∈ l) (e : Ext H l h) :
    ∃ p h', fqMake A i h ctx = .ok (p, h') ∧ Ext H ((p, .fq i 0) :: l) h' :=
  fqMake_aux A ((e.new A).get _ _ (List.mem_cons_of_mem _ hc)) e

/-- The context may be in the memory to which cells are added. -/
theorem fqMake_ext' {ctx : Nat} (A : Allocator U) (hc : H.lookup ctx = some (.ctx i)) (e : Ext H l h) :
    ∃ p h', fqMake A i h ctx = .ok (p, h') ∧ Ext H ((p, .fq i 0) :: l) h' := by
  refine fqMake_aux A ?_ e
  have e' := e.new A
  rw [e'.other ctx fun h' => e'.fresh ctx h' (Finmap.mem_of_lookup_eq_some hc), hc]

theorem copyNew_ext {ctx q : Nat} {x : U i} (A : Allocator U) (hc : (ctx, .ctx i) ∈ l) (hq : (q, .fq i x) ∈ l)
    (e : Ext H l h) : ∃ p h', copyNew A i h ctx q = .ok (p, h') ∧ Ext H ((p, .fq i x) :: l) h' := by
  obtain ⟨p, h1, a1, a2⟩ := fqMake_ext A hc e
  obtain ⟨h2, b1, b2⟩ := fqSet_ext (l₁ := []) (a2.get _ _ (List.mem_cons_of_mem _ hc)) a2 x
  refine ⟨p, h2, ?_, b2⟩
  rw [copyNew, a1, Res.bind_ok]
  dsimp only
  rw [fqGet_ok (a2.get _ _ (List.mem_cons_of_mem _ hc)) (a2.get _ _ (List.mem_cons_of_mem _ hq)), Res.bind_ok, b1]
  rfl

theorem fqMul_ext {ctx x y : Nat} {u v w : U i} (hc : h.lookup ctx = some (.ctx i)) (hx : h.lookup x = some (.fq i u))
    (hy : h.lookup y = some (.fq i v)) (e : Ext H (l₁ ++ (p, .fq i w) :: l₂) h) :
    ∃ h', fqMul i h ctx p x y = .ok h' ∧ Ext H (l₁ ++ (p, .fq i (u * v)) :: l₂) h' := by
  obtain ⟨h', h1, h2⟩ := fqSet_ext hc e (u * v)
  refine ⟨h', ?_, h2⟩
  rw [fqMul, fqGet_ok hc hx, Res.bind_ok, fqGet_ok hc hy, Res.bind_ok, h1]

theorem fqAdd_ext {ctx x y : Nat} {u v w : U i} (hc : h.lookup ctx = some (.ctx i)) (hx : h.lookup x = some (.fq i u))
    (hy : h.lookup y = some (.fq i v)) (e : Ext H (l₁ ++ (p, .fq i w) :: l₂) h) :
    ∃ h', fqAdd i h ctx p x y = .ok h' ∧ Ext H (l₁ ++ (p, .fq i (u + v)) :: l₂) h' := by
  obtain ⟨h', h1, h2⟩ := fqSet_ext hc e (u + v)
  refine ⟨h', ?_, h2⟩
  rw [fqAdd, fqGet_ok hc hx, Res.bind_ok, fqGet_ok hc hy, Res.bind_ok, h1]

theorem fqPow_ext {ctx x n : Nat} {u w : U i} (hc : h.lookup ctx = some (.ctx i)) (hx : h.lookup x = some (.fq i u))
    (e : Ext H (l₁ ++ (p, .fq i w) :: l₂) h) :
    ∃ h', fqPow i h ctx p x n = .ok h' ∧ Ext H (l₁ ++ (p, .fq i (u ^ n)) :: l₂) h' := by
  obtain ⟨h', h1, h2⟩ := fqSet_ext hc e (u ^ n)
  refine ⟨h', ?_, h2⟩
  rw [fqPow, fqGet_ok hc hx, Res.bind_ok, h1]

omit [DecidableEq I] [Field (U i)] in
theorem makeCtx_ext (A : Allocator U) (e : Ext H l h) (prime : Nat) :
    ∃ ctx h', makeCtx A i h prime = .ok (ctx, h') ∧ Ext H ((ctx, .ctx i) :: l) h' := by
  obtain ⟨p, h1, a1, a2⟩ := make_ext (e.new A) A (.fmpz prime)
  obtain ⟨h2, b1, b2⟩ := init_ext (l₁ := [_]) a2 (.ctx i)
  obtain ⟨h3, c1, c2⟩ := drop_ext (l₁ := []) b2 trivial
  refine ⟨_, h3, ?_, c2⟩
  show (make A (Memory.new A h).2 _ >>= _) = _
  rw [a1, Res.bind_ok]
  dsimp only
  rw [fmpzGet, a2.get p _ List.mem_cons_self]
  dsimp only
  rw [Res.bind_ok, show init h1 (A.pick h) _ = _ from b1, Res.bind_ok, c1]
  rfl

/-! ### FqElementTable -/

/-- The cells of elements. -/
def cells (c : List (Nat × U i)) : List (Nat × Obj U) := c.map fun q => (q.1, .fq i q.2)

omit [Field (U i)] in
theorem dropAll_ext {ctx : Nat} (hc : (ctx, .ctx i) ∈ l) : ∀ {c : List (Nat × U i)} {h : Heap U}, Ext H (cells c ++ l) h →
    ∃ h', dropAll i h ctx (c.map Prod.fst) = .ok h' ∧ Ext H l h' := by
  intro c
  induction c with
  | nil => exact fun {h} e => ⟨h, rfl, e⟩
  | cons q c ih =>
    intro h e
    obtain ⟨h1, a1, a2⟩ := fqDrop_ext (l₁ := []) (e.get _ _ (List.mem_append_right _ hc)) e
    obtain ⟨h2, b1, b2⟩ := ih a2
    refine ⟨h2, ?_, b2⟩
    rw [List.map_cons, dropAll, a1, Res.bind_ok, b1]

variable [DecidableEq (U i)]

omit [DecidableEq I] [Field (U i)] [DecidableEq (U i)] in
theorem perm_cells (c : List (Nat × U i)) (b : Nat) (x : U i) (l : List (Nat × Obj U)) :
    ((b, Obj.fq i x) :: (cells c ++ l)).Perm (cells (c ++ [(b, x)]) ++ l) := by
  rw [cells, cells, List.map_append, List.append_assoc]
  exact List.perm_middle.symm

theorem fill_ext {ctx gen a state : Nat} {g y : U i} (A : Allocator U) (n : Nat) :
    ∀ {x : U i} {c : List (Nat × U i)} {h : Heap U}, (c.map Prod.snd)[0]? = some y →
      Ext H (cells c ++ ([(state, .rand)] ++ (a, .fq i x) :: ((gen, .fq i g) :: (ctx, .ctx i) :: l))) h →
      match FqElementTable.fill g y n x (c.map Prod.snd) with
      | (true, x', vs) => ∃ c' h', fill A i ctx gen a n h (c.map Prod.fst) = .ok (true, c'.map Prod.fst, h') ∧
          c'.map Prod.snd = vs ∧
          Ext H (cells c' ++ ([(state, .rand)] ++ (a, .fq i x') :: ((gen, .fq i g) :: (ctx, .ctx i) :: l))) h'
      | (false, x', _) => ∃ es h', fill A i ctx gen a n h (c.map Prod.fst) = .ok (false, es, h') ∧
          Ext H ([(state, .rand)] ++ (a, .fq i x') :: ((gen, .fq i g) :: (ctx, .ctx i) :: l)) h' := by
  induction n with
  | zero => exact fun {x c h} _ e => ⟨c, h, rfl, rfl, e⟩
  | succ n ih =>
    intro x c h hf e
    obtain ⟨⟨p, y'⟩, c, rfl⟩ : ∃ q c', c = q :: c' := by
      cases c with
      | nil => cases hf
      | cons q c => exact ⟨q, c, rfl⟩
    cases hf
    have hctx := e.get ctx (.ctx i) (by simp)
    have ha := e.get a (.fq i x) (by simp)
    have hfr := e.get p (.fq i y') (by simp [cells])
    rw [FqElementTable.fill, fill]
    simp only [List.map_cons, show rd (p :: List.map Prod.fst c) 0 = .ok p from rfl, Res.bind_ok, fqGet_ok hctx ha,
      fqGet_ok hctx hfr]
    by_cases hx : x = y'
    · rw [if_pos hx, if_pos hx]
      obtain ⟨h', b1, b2⟩ := dropAll_ext (ctx := ctx) (by simp) e
      dsimp only
      rw [List.map_cons] at b1
      rw [b1]
      exact ⟨_, h', rfl, b2⟩
    · rw [if_neg hx, if_neg hx]
      obtain ⟨b, h1, a1, a2⟩ := copyNew_ext A (by simp) (by simp) e (ctx := ctx) (q := a) (x := x)
      have a3 := a2.perm (perm_cells _ _ _ _)
      have a4 := a3
      rw [← List.append_assoc] at a4
      obtain ⟨h2, b1, b2⟩ := fqMul_ext (a3.get ctx _ (by simp)) (a3.get a (.fq i x) (by simp)) (a3.get gen (.fq i g) (by simp)) a4
      rw [List.append_assoc] at b2
      have := ih (x := x * g) (c := (p, y') :: c ++ [(b, x)]) (by simp) b2
      rw [a1, Res.bind_ok]
      dsimp only
      rw [b1, Res.bind_ok]
      simpa using this

theorem search_ext {ctx gen a state pred : Nat} {cand : Nat → U i} (A : Allocator U) (fuel : Nat) :
    ∀ {k : Nat} {x : U i} {h : Heap U},
      Ext H ((state, .rand) :: (a, .fq i x) :: (gen, .fq i (cand k)) :: (ctx, .ctx i) :: l) h →
      match FqElementTable.search cand pred fuel k x with
      | .ok vs => ∃ c x' g' h', search A i cand pred ctx gen a state fuel k h = .ok (c.map Prod.fst, h') ∧
          c.map Prod.snd = vs ∧
          Ext H (cells c ++ ((state, .rand) :: (a, .fq i x') :: (gen, .fq i g') :: (ctx, .ctx i) :: l)) h'
      | .diverge => search A i cand pred ctx gen a state fuel k h = .diverge
      | _ => False := by
  induction fuel with
  | zero => exact fun _ => rfl
  | succ fuel ih =>
    intro k x h e
    obtain ⟨b, h1, a1, a2⟩ := copyNew_ext A (ctx := ctx) (q := a) (x := x) (by simp) (by simp) e
    obtain ⟨h2, b1, b2⟩ := fqMul_ext (l₁ := [(b, .fq i x), (state, .rand)]) (a2.get ctx _ (by simp))
      (a2.get a (.fq i x) (by simp)) (a2.get gen (.fq i (cand k)) (by simp)) a2
    have h3 := fill_ext (y := x) A (pred - 1) (c := [(b, x)]) (by simp) b2
    rw [FqElementTable.search, search, a1, Res.bind_ok]
    dsimp only
    rw [b1, Res.bind_ok]
    simp only [List.map_cons, List.map_nil] at h3
    revert h3
    rcases FqElementTable.fill (cand k) x (pred - 1) (x * cand k) [x] with ⟨_ | _, x', vs⟩
    · rintro ⟨es, h', c1, c2⟩
      obtain ⟨h4, d1, d2⟩ := fqSet_ext (l₁ := [(state, .rand), (a, .fq i x')]) (c2.get ctx _ (by simp)) c2 (cand (k + 1))
      dsimp only
      rw [c1, Res.bind_ok]
      dsimp only
      rw [useRand, c2.get state .rand (by simp)]
      simp only [Res.bind_ok]
      rw [d1, Res.bind_ok]
      exact ih d2
    · rintro ⟨c, h', c1, c2, c3⟩
      have c4 := c3
      rw [show ([(state, Obj.rand)] ++ (a, Obj.fq i x') :: (gen, .fq i (cand k)) :: (ctx, .ctx i) :: l) =
        [(state, Obj.rand), (a, Obj.fq i x')] ++ (gen, .fq i (cand k)) :: ((ctx, .ctx i) :: l) from rfl,
        ← List.append_assoc] at c4
      obtain ⟨h4, d1, d2⟩ := fqSet_ext (c3.get ctx _ (by simp)) c4 (cand (k + 1))
      dsimp only
      rw [c1, Res.bind_ok]
      dsimp only
      rw [useRand, c3.get state .rand (by simp)]
      simp only [Res.bind_ok]
      rw [d1, Res.bind_ok]
      rw [List.append_assoc] at d2
      exact ⟨c, x', _, h4, rfl, c2, d2⟩

/-- The table in memory holds the table of the model. -/
theorem makeTable_ext (A : Allocator U) (cand : Nat → U i) (prime primeExponent fuel : Nat) (h : Heap U) :
    match FqElementTable.make cand prime primeExponent fuel with
    | .ok t => ∃ ctx c h', makeTable A i cand prime primeExponent fuel h =
          .ok (⟨t.prime, t.primeExponent, t.primePower, t.primePowerPred, ctx, c.map Prod.fst⟩, h') ∧
        c.map Prod.snd = t.fqElements ∧ Ext h (cells c ++ [(ctx, .ctx i)]) h'
    | .diverge => makeTable A i cand prime primeExponent fuel h = .diverge
    | .ub => 4294967296 ≤ prime ^ primeExponent ∧ makeTable A i cand prime primeExponent fuel h = .ub
    | .abort => False := by
  by_cases hfit : prime ^ primeExponent < 4294967296
  swap
  · rw [FqElementTable.make, makeTable, primePowerOf_ge (by omega)]
    exact ⟨by omega, rfl⟩
  obtain ⟨ctx, h1, a1, a2⟩ := makeCtx_ext (i := i) A (Ext.nil h) prime
  obtain ⟨gen, h2, b1, b2⟩ := fqMake_ext (i := i) A (ctx := ctx) (by simp) a2
  obtain ⟨h3, c1, c2⟩ := fqSet_ext (l₁ := []) (b2.get ctx _ (by simp)) b2 (cand 0)
  obtain ⟨a, h4, d1, d2⟩ := fqMake_ext (i := i) A (ctx := ctx) (by simp) c2
  obtain ⟨h5, e1, e2⟩ := fqSet_ext (l₁ := []) (d2.get ctx _ (by simp)) d2 (1 : U i)
  obtain ⟨state, h6, f1, f2⟩ := make_ext e2 A .rand
  have g1 := search_ext (pred := prime ^ primeExponent - 1) A fuel f2
  rw [FqElementTable.make, makeTable, primePowerOf_lt hfit]
  simp only [Res.bind_ok]
  rw [a1]
  simp only [Res.bind_ok]
  rw [b1]
  simp only [Res.bind_ok]
  rw [c1]
  simp only [Res.bind_ok]
  rw [d1]
  simp only [Res.bind_ok]
  rw [e1]
  simp only [Res.bind_ok]
  rw [f1]
  simp only [Res.bind_ok]
  revert g1
  rcases FqElementTable.search cand (prime ^ primeExponent - 1) fuel 0 1 with vs | _ | _ | _
  · rintro ⟨c, x', g', h7, k1, k2, k3⟩
    obtain ⟨b, h8, l1, l2⟩ := fqMake_ext (i := i) A (ctx := ctx) (by simp) k3
    obtain ⟨h9, m1, m2⟩ := fqSet_ext (l₁ := []) (l2.get ctx _ (by simp)) l2 (0 : U i)
    have m3 := m2.perm (perm_cells _ _ _ _)
    obtain ⟨h10, n1, n2⟩ := drop_ext m3 trivial
    have n3 : Ext h ((cells (c ++ [(b, 0)]) ++ [(a, .fq i x')]) ++ (gen, .fq i g') :: [(ctx, .ctx i)]) h10 := by
      rw [List.append_assoc]
      exact n2
    obtain ⟨h11, o1, o2⟩ := fqDrop_ext (n2.get ctx _ (by simp)) n3
    rw [List.append_assoc] at o2
    obtain ⟨h12, p1, p2⟩ := fqDrop_ext (o2.get ctx _ (by simp)) o2
    refine ⟨ctx, c ++ [(b, 0)], h12, ?_, ?_, p2⟩
    · rw [k1]
      simp only [Res.bind_ok]
      rw [l1]
      simp only [Res.bind_ok]
      rw [m1]
      simp only [Res.bind_ok]
      rw [n1]
      simp only [Res.bind_ok]
      rw [o1]
      simp only [Res.bind_ok]
      rw [p1]
      simp
    · simp [k2]
  · exact False.elim
  · exact False.elim
  · intro g1
    rw [g1]
    rfl

omit [Field (U i)] [DecidableEq (U i)] in
theorem destroyTable_ext {t : Table} {c : List (Nat × U i)} (ht : t.elements = c.map Prod.fst)
    (e : Ext H (cells c ++ [(t.ctx, .ctx i)]) h) : destroyTable i t h = .ok H := by
  obtain ⟨h1, a1, a2⟩ := dropAll_ext (ctx := t.ctx) (by simp) e
  obtain ⟨h2, b1, b2⟩ := drop_ext (l₁ := []) a2 trivial
  rw [destroyTable, ht, a1, Res.bind_ok, b1, b2.eq_of_nil]

end

end Hycu.Memory
