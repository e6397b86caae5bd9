import Verif.Lemmas.Memory
import Verif.Spec.Memory

/-!
The functions of curves and of the reduction table leave the memory as it was.
-/

namespace Hycu.Memory

/-- Both computations end in the same way, with results related by `Q`. -/
def Sim {α β : Type} (Q : α → β → Prop) : Res α → Res β → Prop
  | .ok a, .ok b => Q a b
  | .ub, .ub => True
  | .abort, .abort => True
  | .diverge, .diverge => True
  | _, _ => False

theorem Sim.bind {α β γ δ : Type} {Q : α → β → Prop} {R : γ → δ → Prop} {r : Res α} {m : Res β} {f : α → Res γ}
    {g : β → Res δ} (h : Sim Q r m) (hfg : ∀ a b, Q a b → Sim R (f a) (g b)) : Sim R (r >>= f) (m >>= g) := by
  cases r <;> cases m <;> first | exact hfg _ _ h | exact h.elim | trivial

/-- The right computation makes steps of its own. -/
theorem Sim.right {α β δ : Type} {R : α → δ → Prop} {r : Res α} {m : Res β} {g : β → Res δ} {b : β} (h : m = .ok b)
    (hg : Sim R r (g b)) : Sim R r (m >>= g) := by
  rw [h]
  exact hg

theorem Sim.eq {α β : Type} {r : Res α} {m : Res (α × β)} {y : β} (h : Sim (fun a b => b = (a, y)) r m) :
    m = r >>= fun a => .ok (a, y) := by
  cases r <;> cases m <;> first | exact h.elim | rfl | (rw [show _ = _ from h]; rfl)

variable {I : Type} {U : I → Type} [DecidableEq I] {i : I} {H h : Heap U} {l l₁ l₂ : List (Nat × Obj U)} {p : Nat}

omit [DecidableEq I] in
theorem Ext.base {o : Obj U} {q : Nat} (e : Ext H l h) (hq : H.lookup q = some o) : h.lookup q = some o := by
  rw [e.other q fun h' => e.fresh q h' (Finmap.mem_of_lookup_eq_some hq), hq]

omit [DecidableEq I] in
theorem Holds.ext {t : Table} {vs : List (U i)} (ht : Holds i t vs H) (e : Ext H l h) : Holds i t vs h :=
  ⟨e.base ht.ctx, ht.len, fun n p x h1 h2 => e.base (ht.get n p x h1 h2)⟩

theorem Holds.read {t : Table} {vs : List (U i)} (ht : Holds i t vs h) (n : Nat) :
    Sim (fun x p => fqGet i h t.ctx p = .ok x) (rd vs n) (rd t.elements n) ∧
      Sim (fun x p => fqGet i h t.ctx p = .ok x) (rdAt vs n) (rdAt t.elements n) := by
  unfold rd rdAt
  by_cases hn : n < vs.length
  · have hn' : n < t.elements.length := ht.len ▸ hn
    rw [List.getElem?_eq_getElem hn, List.getElem?_eq_getElem hn']
    have := fqGet_ok ht.ctx (ht.get n _ _ (List.getElem?_eq_getElem hn') (List.getElem?_eq_getElem hn))
    exact ⟨this, this⟩
  · have hn' : ¬ n < t.elements.length := ht.len ▸ hn
    rw [List.getElem?_eq_none (by omega), List.getElem?_eq_none (by omega)]
    exact ⟨trivial, trivial⟩

theorem setNmodCoeffs_sim {t : Table} {vs : List (U i)} (ht : Holds i t vs H) (fl : FlintPoly (U i)) :
    ∀ (es : List Nat) {f : List Nat} {h : Heap U}, Ext H ((p, .nmodPoly f) :: l) h →
      Sim (fun g h' => Ext H ((p, .nmodPoly (f ++ g)) :: l) h')
        (es.mapM fun e => do let a ← rdAt vs e; pure (fl.coeff a 0)) (setNmodCoeffs i fl t p es h) := by
  intro es
  induction es with
  | nil =>
    intro f h e
    show Ext _ _ _
    simpa using e
  | cons x es ih =>
    intro f h e
    rw [List.mapM_cons, setNmodCoeffs, bind_assoc]
    refine ((ht.ext e).read x).2.bind fun a q hq => ?_
    refine Sim.right hq ?_
    refine Sim.right (b := f) (by rw [nmodPolyGet, e.get p _ List.mem_cons_self]) ?_
    refine Sim.right (b := h.insert p (.nmodPoly (f ++ [fl.coeff a 0])))
      (by rw [nmodPolySet, e.get p _ List.mem_cons_self]) ?_
    rw [Res.pure_eq, Res.bind_ok]
    have := ih (e.store (l₁ := []) (.nmodPoly (f ++ [fl.coeff a 0])))
    revert this
    generalize setNmodCoeffs i fl t p es _ = m
    rcases List.mapM (m := Res) _ es with g | _ | _ | _ <;> cases m <;> try exact id
    intro h'
    show Ext _ _ _
    simpa [Sim] using h'

theorem rhsNmodPolynomial_sim {t : Table} {c : Curve (U i)} (he : t.primeExponent = c.table.primeExponent)
    (ht : Holds i t c.table.fqElements H) (A : Allocator U) (fl : FlintPoly (U i)) (e : Ext H l h) :
    Sim (fun f q => Ext H ((q.1, .nmodPoly f) :: l) q.2) (c.rhsNmodPolynomial fl)
      (rhsNmodPolynomial A i fl t c.coeffs h) := by
  unfold Curve.rhsNmodPolynomial rhsNmodPolynomial
  rw [he]
  split
  · trivial
  · obtain ⟨p, h1, a1, a2⟩ := make_ext e A (.nmodPoly [])
    refine Sim.right a1 ?_
    dsimp only
    have := setNmodCoeffs_sim ht fl c.coeffs a2
    revert this
    generalize setNmodCoeffs i fl t p c.coeffs h1 = m
    rcases List.mapM (m := Res) _ c.coeffs with g | _ | _ | _ <;> cases m <;> exact id

theorem fqPolyGet_ok {ctx : Nat} {f : List (U i)} (hc : h.lookup ctx = some (.ctx i))
    (hp : h.lookup p = some (.fqPoly i f)) : fqPolyGet i h ctx p = .ok f := by
  rw [fqPolyGet, useCtx_ok hc, Res.bind_ok, hp]
  exact dif_pos rfl

theorem fqPolySet_ok {ctx : Nat} {f : List (U i)} (hc : h.lookup ctx = some (.ctx i))
    (hp : h.lookup p = some (.fqPoly i f)) (g : List (U i)) : fqPolySet i h ctx p g = .ok (h.insert p (.fqPoly i g)) := by
  rw [fqPolySet, useCtx_ok hc, Res.bind_ok, hp]
  exact if_pos rfl

theorem fqPolyClear_ok {ctx : Nat} {f : List (U i)} (hc : h.lookup ctx = some (.ctx i))
    (hp : h.lookup p = some (.fqPoly i f)) : fqPolyClear i h ctx p = .ok (h.insert p .raw) := by
  rw [fqPolyClear, useCtx_ok hc, Res.bind_ok, hp]
  exact if_pos rfl

theorem fqFactorClear_ok {ctx : Nat} {f : List (List (U i) × Nat)} (hc : h.lookup ctx = some (.ctx i))
    (hp : h.lookup p = some (.fqFactor i f)) : fqFactorClear i h ctx p = .ok (h.insert p .raw) := by
  rw [fqFactorClear, useCtx_ok hc, Res.bind_ok, hp]
  exact if_pos rfl

theorem fqFactorSet_ok {ctx : Nat} {f : List (List (U i) × Nat)} (hc : h.lookup ctx = some (.ctx i))
    (hp : h.lookup p = some (.fqFactor i f)) (g : List (List (U i) × Nat)) :
    fqFactorSet i h ctx p g = .ok (h.insert p (.fqFactor i g)) := by
  rw [fqFactorSet, useCtx_ok hc, Res.bind_ok, hp]
  exact if_pos rfl

theorem fqFactorGet_ok {f : List (List (U i) × Nat)} (hp : h.lookup p = some (.fqFactor i f)) :
    fqFactorGet i h p = .ok f := by
  rw [fqFactorGet, hp]
  exact dif_pos rfl

theorem setFqCoeffs_sim {t : Table} {vs : List (U i)} (ht : Holds i t vs H) :
    ∀ (es : List Nat) {f : List (U i)} {h : Heap U}, Ext H ((p, .fqPoly i f) :: l) h →
      Sim (fun g h' => Ext H ((p, .fqPoly i (f ++ g)) :: l) h') (es.mapM fun e => rd vs e) (setFqCoeffs i t p es h) := by
  intro es
  induction es with
  | nil =>
    intro f h e
    show Ext _ _ _
    simpa using e
  | cons x es ih =>
    intro f h e
    rw [List.mapM_cons, setFqCoeffs]
    refine ((ht.ext e).read x).1.bind fun a q hq => ?_
    refine Sim.right hq ?_
    have hp := e.get p _ List.mem_cons_self
    refine Sim.right (fqPolyGet_ok (e.base ht.ctx) hp) ?_
    refine Sim.right (fqPolySet_ok (e.base ht.ctx) hp _) ?_
    have := ih (e.store (l₁ := []) (.fqPoly i (f ++ [a])))
    revert this
    generalize setFqCoeffs i t p es _ = m
    rcases List.mapM (m := Res) _ es with g | _ | _ | _ <;> cases m <;> try exact id
    intro h'
    show Ext _ _ _
    simpa [Sim] using h'

theorem rhsPolynomial_sim {t : Table} {c : Curve (U i)} (ht : Holds i t c.table.fqElements H) (A : Allocator U)
    (e : Ext H l h) :
    Sim (fun f q => Ext H ((q.1, .fqPoly i f) :: l) q.2) c.rhsPolynomial (rhsPolynomial A i t c.coeffs h) := by
  obtain ⟨h1, a1, a2⟩ := init_ext (l₁ := []) (e.new A) (.fqPoly i [])
  show Sim _ _ (useCtx i (Memory.new A h).2 t.ctx >>= _)
  refine Sim.right (useCtx_ok ((e.new A).base ht.ctx)) ?_
  refine Sim.right (show init (Memory.new A h).2 (A.pick h) _ = _ from a1) ?_
  have := setFqCoeffs_sim ht c.coeffs a2
  revert this
  unfold Curve.rhsPolynomial FqElementTable.at'
  generalize setFqCoeffs i t (A.pick h) c.coeffs h1 = m
  rcases List.mapM (m := Res) _ c.coeffs with g | _ | _ | _ <;> cases m <;> exact id

/-- `has_squarefree_rhs` gives back all memory. -/
theorem hasSquarefreeRhs_eq {t : Table} {c : Curve (U i)} (he : t.primeExponent = c.table.primeExponent)
    (ht : Holds i t c.table.fqElements h) (A : Allocator U) (fl : FlintPoly (U i)) :
    hasSquarefreeRhs A i fl t c.coeffs h = c.hasSquarefreeRhs fl >>= fun b => .ok (b, h) := by
  refine Sim.eq ?_
  unfold hasSquarefreeRhs Curve.hasSquarefreeRhs
  rw [he]
  split
  · refine (rhsNmodPolynomial_sim he ht A fl (Ext.nil h)).bind fun f q e => ?_
    obtain ⟨p, h1⟩ := q
    dsimp only at e ⊢
    refine Sim.right (b := f) (by rw [nmodPolyGet, e.get p _ List.mem_cons_self]) ?_
    obtain ⟨h2, a1, a2⟩ := drop_ext (l₁ := []) e trivial
    refine Sim.right a1 ?_
    rw [a2.eq_of_nil]
    rfl
  · refine (rhsPolynomial_sim ht A (Ext.nil h)).bind fun f q e => ?_
    obtain ⟨p, h1⟩ := q
    dsimp only at e ⊢
    have hp := e.get p _ List.mem_cons_self
    refine Sim.right (fqPolyGet_ok (e.base ht.ctx) hp) ?_
    refine Sim.right (fqPolyClear_ok (e.base ht.ctx) hp) ?_
    obtain ⟨h2, a1, a2⟩ := delete_ext (l₁ := []) (e.store (l₁ := []) .raw)
    refine Sim.right a1 ?_
    rw [a2.eq_of_nil]
    rfl

variable [Field (U i)]

/-- The factorisation in `ramification_type` gives back all memory. -/
theorem rhsFactorDegrees_eq {t : Table} {c : Curve (U i)} (he : t.primeExponent = c.table.primeExponent)
    (ht : Holds i t c.table.fqElements h) (hn : c.coeffs ≠ []) (A : Allocator U) (fl : FlintPoly (U i)) :
    rhsFactorDegrees A i fl t c.coeffs h = c.rhsFactorDegrees fl >>= fun b => .ok (b, h) := by
  refine Sim.eq ?_
  unfold rhsFactorDegrees Curve.rhsFactorDegrees
  rw [he]
  split
  · refine (rhsNmodPolynomial_sim he ht A fl (Ext.nil h)).bind fun f q e => ?_
    obtain ⟨p, h1⟩ := q
    dsimp only at e ⊢
    obtain ⟨q, h2, a1, a2⟩ := make_ext e A (.nmodFactor [])
    refine Sim.right a1 ?_
    dsimp only
    refine Sim.right (b := f) (by rw [nmodPolyGet, a2.get p (.nmodPoly f) (by simp)]) ?_
    refine Sim.right (b := h2.insert q (.nmodFactor (fl.nmodFactor f)))
      (by rw [nmodFactorSet, a2.get q _ List.mem_cons_self]) ?_
    have a3 := a2.store (l₁ := []) (.nmodFactor (fl.nmodFactor f))
    refine Sim.right (b := fl.nmodFactor f) (by rw [nmodFactorGet, a3.get q _ List.mem_cons_self]) ?_
    obtain ⟨h3, b1, b2⟩ := drop_ext (l₁ := []) a3 trivial
    refine Sim.right b1 ?_
    obtain ⟨h4, c1, c2⟩ := drop_ext (l₁ := []) b2 trivial
    refine Sim.right c1 ?_
    rw [c2.eq_of_nil]
    rfl
  · have hne : ∀ f, c.rhsPolynomial = .ok f → f ≠ [] := by
      intro f hf hf'
      subst hf'
      obtain ⟨e, es, he⟩ := List.exists_cons_of_ne_nil hn
      rw [Curve.rhsPolynomial, he, List.mapM_cons] at hf
      obtain ⟨_, _, hf⟩ := Res.bind_eq_ok.1 hf
      obtain ⟨_, _, hf⟩ := Res.bind_eq_ok.1 hf
      cases hf
    have h0 := rhsPolynomial_sim ht A (Ext.nil h)
    revert h0 hne
    rcases c.rhsPolynomial with f | _ | _ | _ <;> rcases rhsPolynomial A i t c.coeffs h with ⟨p, h1⟩ | _ | _ | _ <;>
      intro hne e <;> try first | exact e.elim | exact trivial
    replace hne := hne f rfl
    replace e : Ext h [(p, .fqPoly i f)] h1 := e
    rw [Res.bind_ok, Res.bind_ok]
    dsimp only
    obtain ⟨lead, h2, a1, a2⟩ := fqMake_ext' A ht.ctx e
    refine Sim.right a1 ?_
    dsimp only
    obtain ⟨h3, b1, b2⟩ := init_ext (l₁ := []) (a2.new A) (.fqFactor i [])
    show Sim _ _ (useCtx i (Memory.new A h2).2 t.ctx >>= _)
    refine Sim.right (useCtx_ok ((a2.new A).base ht.ctx)) ?_
    refine Sim.right (show init (Memory.new A h2).2 (A.pick h2) _ = _ from b1) ?_
    refine Sim.right (fqPolyGet_ok (b2.base ht.ctx) (b2.get p (.fqPoly i f) (by simp))) ?_
    have hlt : f.length - 1 < f.length := by
      have := List.length_pos_iff.2 hne
      omega
    refine Sim.right (rd_of_lt hlt) ?_
    obtain ⟨h4, c1, c2⟩ := fqSet_ext (l₁ := [(_, _)]) (b2.base ht.ctx) b2 f[f.length - 1]
    refine Sim.right c1 ?_
    refine Sim.right (fqFactorSet_ok (c2.base ht.ctx) (c2.get (A.pick h2) _ List.mem_cons_self) (fl.fqFactor f)) ?_
    have c3 := c2.store (l₁ := []) (.fqFactor i (fl.fqFactor f))
    refine Sim.right (fqFactorGet_ok (c3.get (A.pick h2) _ List.mem_cons_self)) ?_
    refine Sim.right (fqFactorClear_ok (c3.base ht.ctx) (c3.get (A.pick h2) _ List.mem_cons_self)) ?_
    obtain ⟨h5, d1, d2⟩ := delete_ext (l₁ := []) (c3.store (l₁ := []) .raw)
    refine Sim.right d1 ?_
    refine Sim.right (fqPolyClear_ok (d2.base ht.ctx) (d2.get p (.fqPoly i f) (by simp))) ?_
    obtain ⟨h6, f1, f2⟩ := delete_ext (l₁ := [_]) (d2.store (l₁ := [_]) .raw)
    refine Sim.right f1 ?_
    obtain ⟨h7, g1, g2⟩ := fqDrop_ext (l₁ := []) (f2.base ht.ctx) f2
    refine Sim.right g1 ?_
    rw [g2.eq_of_nil]
    rfl

end Hycu.Memory
