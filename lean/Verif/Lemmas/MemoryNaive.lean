import Verif.Lemmas.MemoryCurve

/-!
The memory of the generator search of the reduction table, and of the naive counting functions.
-/

namespace Hycu.Memory

variable {I : Type} {U : I → Type} [DecidableEq I] {i : I} {H h : Heap U} {l l₁ l₂ : List (Nat × Obj U)} {p : Nat}
  [Field (U i)]

/-! ### ReductionTable -/

theorem fillPowers_ext {ctx gen a state : Nat} {g : U i} (sum : U i → Nat) (n : Nat) :
    ∀ {ix : Nat} {x : U i} {m : OMap Nat Nat} {h : Heap U},
      Ext H ([(state, .rand)] ++ (a, .fq i x) :: ((gen, .fq i g) :: (ctx, .ctx i) :: l)) h →
      ∃ x' h', fillPowers i sum ctx gen a n ix h m = .ok ((ReductionTable.fillPowers sum g n ix x m).1,
          (ReductionTable.fillPowers sum g n ix x m).2, h') ∧
        Ext H ([(state, .rand)] ++ (a, .fq i x') :: ((gen, .fq i g) :: (ctx, .ctx i) :: l)) h' := by
  induction n with
  | zero => exact fun {ix x m h} e => ⟨x, h, rfl, e⟩
  | succ n ih =>
    intro ix x m h e
    have hc := e.get ctx (.ctx i) (by simp)
    have hx := e.get a (.fq i x) (by simp)
    rw [fillPowers, ReductionTable.fillPowers, fqGet_ok hc hx, Res.bind_ok]
    split
    · exact ⟨x, h, rfl, e⟩
    · obtain ⟨h1, a1, a2⟩ := fqMul_ext hc hx (e.get gen (.fq i g) (by simp)) e
      rw [a1, Res.bind_ok]
      exact ih a2

theorem searchPowers_sim {ctx gen a state pred : Nat} {cand : Nat → U i} (sum : U i → Nat) (fuel : Nat) :
    ∀ {k : Nat} {x : U i} {h : Heap U},
      Ext H ([(state, .rand)] ++ (a, .fq i x) :: ((gen, .fq i (cand k)) :: (ctx, .ctx i) :: l)) h →
      Sim (fun m q => q.1 = m ∧ ∃ x' g', Ext H ((state, .rand) :: (a, .fq i x') :: (gen, .fq i g') :: (ctx, .ctx i) :: l) q.2)
        (ReductionTable.searchPowers sum cand pred fuel k) (searchPowers i sum cand pred ctx gen a state fuel k h) := by
  induction fuel with
  | zero => exact fun _ => trivial
  | succ fuel ih =>
    intro k x h e
    obtain ⟨h1, a1, a2⟩ := fqSet_ext (e.get ctx _ (by simp)) e (1 : U i)
    obtain ⟨x', h2, b1, b2⟩ := fillPowers_ext (x := 1) sum pred (ix := 0) (m := OMap.set [] 0 pred) a2
    obtain ⟨h3, c1, c2⟩ := fqSet_ext (l₁ := [(state, .rand), (a, .fq i x')]) (b2.get ctx _ (by simp)) b2 (cand (k + 1))
    rw [ReductionTable.searchPowers, searchPowers]
    refine Sim.right a1 ?_
    refine Sim.right b1 ?_
    dsimp only
    refine Sim.right (b := ()) (by rw [useRand, b2.get state .rand (by simp)]) ?_
    refine Sim.right c1 ?_
    rcases ReductionTable.fillPowers sum (cand k) pred 0 1 (OMap.set [] 0 pred) with ⟨_ | _, m⟩
    · exact ih c2
    · exact ⟨rfl, x', _, c2⟩

/-- `compute_incrementation_table` gives back all memory. -/
theorem computeIncrementationTable_eq (A : Allocator U) (coeff : U i → Nat → Nat) (cand : Nat → U i)
    (prime primeExponent primePower fuel : Nat) (h : Heap U) :
    computeIncrementationTable A i coeff cand prime primeExponent primePower fuel h =
      ReductionTable.computeIncrementationTable coeff cand prime primeExponent primePower fuel >>= fun v => .ok (v, h) := by
  refine Sim.eq ?_
  obtain ⟨ctx, h1, a1, a2⟩ := makeCtx_ext (i := i) A (Ext.nil h) prime
  obtain ⟨gen, h2, b1, b2⟩ := fqMake_ext (i := i) A (ctx := ctx) (by simp) a2
  obtain ⟨h3, c1, c2⟩ := fqSet_ext (l₁ := []) (b2.get ctx _ (by simp)) b2 (cand 0)
  obtain ⟨a, h4, d1, d2⟩ := fqMake_ext (i := i) A (ctx := ctx) (by simp) c2
  obtain ⟨state, h5, e1, e2⟩ := make_ext d2 A .rand
  unfold computeIncrementationTable ReductionTable.computeIncrementationTable
  refine Sim.right a1 ?_
  refine Sim.right b1 ?_
  refine Sim.right c1 ?_
  refine Sim.right d1 ?_
  refine Sim.right e1 ?_
  refine (searchPowers_sim _ fuel e2).bind fun m q hq => ?_
  obtain ⟨m', h6⟩ := q
  obtain ⟨rfl, x', g', f2⟩ := hq
  dsimp only at f2 ⊢
  have same : ∀ {α : Type} (r : Res α), Sim Eq r r := fun r => by cases r <;> trivial
  refine (same _).bind fun v v' hv => ?_
  subst hv
  suffices hs : ∀ v, Sim (fun v b => b = (v, h)) (.ok v) (do
      let h ← drop h6 state
      let h ← fqDrop i h ctx gen
      let h ← fqDrop i h ctx a
      let h ← drop h ctx
      pure (v, h)) by
    have h7 := (same (List.foldlM (fun v ij => ReductionTable.setAtInt v (ReductionTable.lookup m' ij.1)
      (ReductionTable.lookup m' ij.2)) v (ReductionTable.incPairs prime primePower))).bind (R := fun v b => b = (v, h))
      (f := Res.ok) (g := fun v => do
        let h ← drop h6 state
        let h ← fqDrop i h ctx gen
        let h ← fqDrop i h ctx a
        let h ← drop h ctx
        pure (v, h)) fun v v' hv => by subst hv; exact hs v
    rwa [show ∀ r : Res (List Nat), (r >>= Res.ok) = r from fun r => by cases r <;> rfl] at h7
  intro v
  obtain ⟨h7, g1, g2⟩ := drop_ext (l₁ := []) f2 trivial
  refine Sim.right g1 ?_
  obtain ⟨h8, k1, k2⟩ := fqDrop_ext (l₁ := [_]) (g2.get ctx _ (by simp)) g2
  refine Sim.right k1 ?_
  obtain ⟨h9, m1, m2⟩ := fqDrop_ext (l₁ := []) (k2.get ctx _ (by simp)) k2
  refine Sim.right m1 ?_
  obtain ⟨h10, n1, n2⟩ := drop_ext (l₁ := []) m2 trivial
  refine Sim.right n1 ?_
  rw [n2.eq_of_nil]
  rfl

/-! ### Naive counting -/

theorem naiveCoeffs_ext {ctx subGen pred : Nat} {s : U i} (A : Allocator U) (es : List Nat) :
    ∀ {l : List (Nat × Obj U)} {h : Heap U}, (ctx, .ctx i) ∈ l → (subGen, .fq i s) ∈ l → Ext H l h →
      ∃ c h', naiveCoeffs A i ctx subGen pred es h = .ok (c.map Prod.fst, h') ∧
        c.map Prod.snd = es.map (fun e => if e = pred then 0 else s ^ e) ∧ Ext H (cells c ++ l) h' := by
  induction es with
  | nil => exact fun {l h} _ _ e => ⟨[], h, rfl, rfl, e⟩
  | cons n es ih =>
    intro l h hc hs e
    obtain ⟨a, h1, a1, a2⟩ := fqMake_ext A hc e
    have : ∃ h2, (if n = pred then fqSet i h1 ctx a 0 else fqPow i h1 ctx a subGen n) = .ok h2 ∧
        Ext H ((a, .fq i (if n = pred then 0 else s ^ n)) :: l) h2 := by
      split
      · exact fqSet_ext (l₁ := []) (a2.get _ _ (List.mem_cons_of_mem _ hc)) a2 0
      · exact fqPow_ext (l₁ := []) (a2.get _ _ (List.mem_cons_of_mem _ hc)) (a2.get _ _ (List.mem_cons_of_mem _ hs)) a2
    obtain ⟨h2, b1, b2⟩ := this
    obtain ⟨c, h3, c1, c2, c3⟩ := ih (List.mem_cons_of_mem _ hc) (List.mem_cons_of_mem _ hs) b2
    refine ⟨(a, if n = pred then 0 else s ^ n) :: c, h3, ?_, by simp [c2], c3.perm ?_⟩
    · rw [naiveCoeffs, a1, Res.bind_ok]
      dsimp only
      by_cases hn : n = pred
      · rw [if_pos hn] at b1
        rw [if_pos hn, b1, Res.bind_ok, c1]
        rfl
      · rw [if_neg hn] at b1
        rw [if_neg hn, b1, Res.bind_ok, c1]
        rfl
    · exact List.perm_middle

/-- The cells of the local variables while points are counted. -/
def locals (v : Locals) (d : List (Nat × Obj U)) (g s x t a b c : U i) : List (Nat × Obj U) :=
  (v.m, .fq i c) :: (v.rhs, .fq i b) :: (v.xpw, .fq i a) :: (v.x, .fq i x) :: (v.tmp, .fq i t) ::
    (d ++ [(v.subGen, .fq i s), (v.gen, .fq i g), (v.ctx, .ctx i)])

theorem naiveEval_ext {v : Locals} {d : List (Nat × Obj U)} {g s x t : U i} : ∀ {c : List (Nat × U i)} {a b m : U i}
    {h : Heap U}, (∀ q ∈ c, (q.1, .fq i q.2) ∈ d) → Ext H (locals v d g s x t a b m) h →
    ∃ a' m' h', naiveEval i v (c.map Prod.fst) h = .ok h' ∧
      Ext H (locals v d g s x t a' (Curve.naiveEval x (c.map Prod.snd) a b) m') h' := by
  intro c
  induction c with
  | nil => exact fun {a b m h} _ e => ⟨a, m, h, rfl, e⟩
  | cons q c ih =>
    intro a b m h hr e
    have get : ∀ {a b m : U i} {h : Heap U}, Ext H (locals v d g s x t a b m) h → h.lookup v.ctx = some (.ctx i) ∧
        h.lookup v.x = some (.fq i x) ∧ h.lookup v.xpw = some (.fq i a) ∧ h.lookup v.rhs = some (.fq i b) ∧
        h.lookup v.m = some (.fq i m) := fun e =>
      ⟨e.get _ _ (by simp [locals]), e.get _ _ (by simp [locals]), e.get _ _ (by simp [locals]), e.get _ _ (by simp [locals]),
        e.get _ _ (by simp [locals])⟩
    obtain ⟨h1, a1, a2⟩ := fqMul_ext (l₁ := []) (get e).1 (e.get q.1 (.fq i q.2) (by simp [locals, hr q])) (get e).2.2.1 e
    replace a2 : Ext H (locals v d g s x t a b (q.2 * a)) h1 := a2
    obtain ⟨h2, b1, b2⟩ := fqAdd_ext (l₁ := [_]) (get a2).1 (get a2).2.2.2.1 (get a2).2.2.2.2 a2
    replace b2 : Ext H (locals v d g s x t a (b + q.2 * a) (q.2 * a)) h2 := b2
    obtain ⟨h3, c1, c2⟩ := fqMul_ext (l₁ := [_, _]) (get b2).1 (get b2).2.2.1 (get b2).2.1 b2
    replace c2 : Ext H (locals v d g s x t (a * x) (b + q.2 * a) (q.2 * a)) h3 := c2
    obtain ⟨a', m', h4, d1, d2⟩ := ih (fun p hp => hr p (List.mem_cons_of_mem _ hp)) c2
    refine ⟨a', m', h4, ?_, d2⟩
    rw [List.map_cons, naiveEval, a1, Res.bind_ok, b1, Res.bind_ok, c1, Res.bind_ok, d1]

variable [DecidableEq (U i)]

theorem naiveSquare_ext {v : Locals} {d : List (Nat × Obj U)} {g s x t a b m y : U i} {pred : Nat} (e : Ext H (locals v d g s x t a b m) h)
    (hp : h.lookup p = some (.fq i y)) : ∃ t' h', naiveSquare i v pred p h = .ok (decide (y ^ (pred / 2) = 1), h') ∧
      Ext H (locals v d g s x t' a b m) h' := by
  obtain ⟨h1, a1, a2⟩ := fqPow_ext (n := pred / 2) (l₁ := [_, _, _, _]) (e.get v.ctx _ (by simp [locals])) hp e
  refine ⟨_, h1, ?_, a2⟩
  rw [naiveSquare, a1, Res.bind_ok, fqGet_ok (a2.get v.ctx _ (by simp)) (a2.get v.tmp (.fq i (y ^ (pred / 2))) (by simp)),
    Res.bind_ok]
  rfl

theorem naiveUpdate_ext {v : Locals} {g s x t a b m : U i} {c : List (Nat × U i)} {pred : Nat} (n : Nat × Nat)
    (e : Ext H (locals v (cells c) g s x t a b m) h) :
    ∃ t' a' b' m' h', naiveUpdate i v pred (c.map Prod.fst) n h = .ok (Curve.naiveUpdate pred (c.map Prod.snd) x n, h') ∧
      Ext H (locals v (cells c) g s x t' a' b' m') h' := by
  obtain ⟨h1, a1, a2⟩ := fqSet_ext (l₁ := [_, _]) (e.get v.ctx _ (by simp [locals])) e (1 : U i)
  replace a2 : Ext H (locals v (cells c) g s x t 1 b m) h1 := a2
  obtain ⟨h2, b1, b2⟩ := fqSet_ext (l₁ := [_]) (a2.get v.ctx _ (by simp [locals])) a2 (0 : U i)
  replace b2 : Ext H (locals v (cells c) g s x t 1 0 m) h2 := b2
  obtain ⟨a', m', h3, c1, c2⟩ := naiveEval_ext (d := cells c) (c := c) (fun q hq => List.mem_map.2 ⟨q, hq, rfl⟩) b2
  rw [naiveUpdate, a1, Res.bind_ok, b1, Res.bind_ok, c1, Res.bind_ok,
    fqGet_ok (c2.get v.ctx _ (by simp [locals])) (c2.get v.rhs (.fq i (Curve.naiveEval x (c.map Prod.snd) 1 0)) (by simp [locals])),
    Res.bind_ok, Curve.naiveUpdate]
  dsimp only
  split
  · exact ⟨t, a', _, m', h3, rfl, c2⟩
  · obtain ⟨t', h4, d1, d2⟩ := naiveSquare_ext (pred := pred) c2
      (c2.get v.rhs (.fq i (Curve.naiveEval x (c.map Prod.snd) 1 0)) (by simp [locals]))
    rw [d1]
    refine ⟨t', a', _, m', h4, ?_, d2⟩
    simp

theorem naiveLoop_ext {v : Locals} {g s : U i} {c : List (Nat × U i)} {pred : Nat} (k : Nat) :
    ∀ {n : Nat × Nat} {x t a b m : U i} {h : Heap U}, Ext H (locals v (cells c) g s x t a b m) h →
      ∃ x' t' a' b' m' h', naiveLoop i v pred (c.map Prod.fst) k n h =
          .ok (Curve.naiveLoop pred (c.map Prod.snd) g k x n, h') ∧ Ext H (locals v (cells c) g s x' t' a' b' m') h' := by
  induction k with
  | zero => exact fun {n x t a b m h} e => ⟨x, t, a, b, m, h, rfl, e⟩
  | succ k ih =>
    intro n x t a b m h e
    obtain ⟨t', a', b', m', h1, a1, a2⟩ := naiveUpdate_ext (pred := pred) n e
    obtain ⟨h2, b1, b2⟩ := fqMul_ext (l₁ := [_, _, _]) (a2.get v.ctx _ (by simp [locals])) (a2.get v.x (.fq i x) (by simp [locals]))
      (a2.get v.gen (.fq i g) (by simp [locals])) a2
    replace b2 : Ext H (locals v (cells c) g s (x * g) t' a' b' m') h2 := b2
    obtain ⟨x', t'', a'', b'', m'', h3, c1, c2⟩ := ih b2
    refine ⟨x', t'', a'', b'', m'', h3, ?_, c2⟩
    rw [naiveLoop, a1, Res.bind_ok]
    dsimp only
    rw [b1, Res.bind_ok, c1]
    rfl

theorem naiveInfinity_ext {F : Type} {v : Locals} {g s x t a b m back : U i} {d : List (Nat × U i)} {pred : Nat} {c : Curve F}
    {n : Nat × Nat} (e : Ext H (locals v (cells d) g s x t a b m) h)
    (hb : rd (d.map Prod.snd) ((d.map Prod.snd).length - 1) = .ok back) :
    ∃ n' t' h', naiveInfinity i v pred c (d.map Prod.fst) n h = .ok (n', h') ∧
      n' = (if c.degree < u32 (2 * c.genus + 2) then (n.1, u32 (n.2 + 1))
        else if back ^ (pred / 2) = 1 then (u32 (n.1 + 2), n.2) else n) ∧
      Ext H (locals v (cells d) g s x t' a b m) h' := by
  unfold naiveInfinity
  split
  · exact ⟨_, t, h, rfl, rfl, e⟩
  · rw [rd_eq_ok, List.length_map, List.getElem?_map] at hb
    obtain ⟨⟨bp, bv⟩, hb1, hb2⟩ := Option.map_eq_some_iff.1 hb
    cases hb2
    rw [show rd (d.map Prod.fst) ((d.map Prod.fst).length - 1) = .ok bp from
      rd_eq_ok.2 (by rw [List.length_map, List.getElem?_map, hb1]; rfl), Res.bind_ok]
    have hmem : (bp, Obj.fq i bv) ∈ cells (i := i) d := List.mem_map.2 ⟨_, List.mem_of_getElem? hb1, rfl⟩
    obtain ⟨tt, h16, s1, s2⟩ := naiveSquare_ext (pred := pred) e (e.get bp (.fq i bv) (by simp [locals, hmem]))
    rw [s1]
    exact ⟨_, tt, h16, rfl, by simp, s2⟩

/-- The naive counting functions count as in the model, and lose the cells of the coefficients. -/
theorem countNaive_ext {F : Type} {c c' : Curve F} {gen : U i} {e : Nat} (hn : c.nmbPoints.contains e = false)
    (hc : c.countNaive gen e = .ok c') (A : Allocator U) (h : Heap U) :
    ∃ n d h', countNaive A i c gen e h = .ok (n, h') ∧ c' = { c with nmbPoints := c.nmbPoints.set e n } ∧
      d.length = c.coeffs.length ∧ Ext h (cells (i := i) d) h' := by
  unfold Curve.countNaive at hc
  split at hc
  · cases hc
  split at hc
  · cases hc
  split at hc
  · cases hc
  split at hc
  · rename_i h0
    rw [hn] at h0
    cases h0
  split at hc
  · cases hc
  split at hc
  · cases hc
  obtain ⟨back, hb, hc⟩ := Res.bind_eq_ok.1 hc
  have hc := (Res.ok.inj hc).symm
  obtain ⟨ctx, h1, a1, a2⟩ := makeCtx_ext (i := i) A (Ext.nil h) c.table.prime
  obtain ⟨g, h2, b1, b2⟩ := fqMake_ext (i := i) A (ctx := ctx) (by simp) a2
  obtain ⟨h3, c1, c2⟩ := fqSet_ext (l₁ := []) (b2.get ctx _ (by simp)) b2 gen
  obtain ⟨s, h4, d1, d2⟩ := fqMake_ext (i := i) A (ctx := ctx) (by simp) c2
  obtain ⟨h5, e1, e2⟩ := fqPow_ext (n := (c.table.prime ^ e - 1) / c.table.primePowerPred) (l₁ := [])
    (d2.get ctx _ (by simp)) (d2.get g (.fq i gen) (by simp)) d2
  obtain ⟨d, h6, f1, f2, f3⟩ := naiveCoeffs_ext (ctx := ctx) (subGen := s) (pred := c.table.primePowerPred) A c.coeffs
    (s := gen ^ ((c.table.prime ^ e - 1) / c.table.primePowerPred)) (by simp) (by simp) e2
  obtain ⟨tmp, h7, g1, g2⟩ := fqMake_ext (i := i) A (ctx := ctx) (by simp) f3
  obtain ⟨x, h8, k1, k2⟩ := fqMake_ext (i := i) A (ctx := ctx) (by simp) g2
  obtain ⟨xpw, h9, l1, l2⟩ := fqMake_ext (i := i) A (ctx := ctx) (by simp) k2
  obtain ⟨rhs, h10, m1, m2⟩ := fqMake_ext (i := i) A (ctx := ctx) (by simp) l2
  obtain ⟨m, h11, n1, n2⟩ := fqMake_ext (i := i) A (ctx := ctx) (by simp) m2
  obtain ⟨h12, o1, o2⟩ := fqSet_ext (l₁ := [_, _, _]) (n2.get ctx _ (by simp)) n2 (0 : U i)
  obtain ⟨t', a', b', m', h13, p1, p2⟩ := naiveUpdate_ext (v := ⟨ctx, g, s, tmp, x, xpw, rhs, m⟩)
    (pred := c.table.prime ^ e - 1) (c := d) (0, 0) o2
  obtain ⟨h14, q1, q2⟩ := fqSet_ext (l₁ := [_, _, _]) (p2.get ctx _ (by simp [locals])) p2 (1 : U i)
  obtain ⟨x', t'', a'', b'', m'', h15, r1, r2⟩ := naiveLoop_ext (v := ⟨ctx, g, s, tmp, x, xpw, rhs, m⟩)
    (pred := c.table.prime ^ e - 1) (c := d) (c.table.prime ^ e - 1)
    (n := Curve.naiveUpdate (c.table.prime ^ e - 1) (d.map Prod.snd) 0 (0, 0)) q2
  rw [f2] at p1 r1
  rw [← f2] at hb
  rw [← f2] at p1 r1 hc
  have hlen : d.length = c.coeffs.length := by simpa using congrArg List.length f2
  obtain ⟨n, tt, h16, s1, s2, s3⟩ := naiveInfinity_ext (c := c) (n := Curve.naiveLoop (c.table.prime ^ e - 1)
    (d.map Prod.snd) gen (c.table.prime ^ e - 1) 1 (Curve.naiveUpdate (c.table.prime ^ e - 1) (d.map Prod.snd) 0 (0, 0))) r2 hb
  rw [← s2] at hc
  obtain ⟨h17, t1, t2⟩ := fqDrop_ext (l₁ := (m, .fq i m'') :: (rhs, .fq i b'') :: (xpw, .fq i a'') :: (x, .fq i x') ::
    (tmp, .fq i tt) :: (cells d ++ [(s, _)])) (s3.get ctx _ (by simp [locals])) (p := g) (x := gen)
    (l₂ := [(ctx, .ctx i)]) (by simpa [locals] using s3)
  obtain ⟨h18, u1, u2⟩ := fqDrop_ext (l₁ := (m, .fq i m'') :: (rhs, .fq i b'') :: (xpw, .fq i a'') :: (x, .fq i x') ::
    (tmp, .fq i tt) :: (cells d)) (t2.get ctx _ (by simp)) (p := s)
    (x := gen ^ ((c.table.prime ^ e - 1) / c.table.primePowerPred)) (l₂ := [(ctx, .ctx i)]) (by simpa using t2)
  obtain ⟨h19, v1, v2⟩ := fqDrop_ext (l₁ := [_, _, _]) (u2.get ctx _ (by simp)) u2
  obtain ⟨h20, w1, w2⟩ := fqDrop_ext (l₁ := [_, _]) (v2.get ctx _ (by simp)) v2
  obtain ⟨h21, x1, x2⟩ := fqDrop_ext (l₁ := [_]) (w2.get ctx _ (by simp)) w2
  obtain ⟨h22, y1, y2⟩ := fqDrop_ext (l₁ := []) (x2.get ctx _ (by simp)) x2
  obtain ⟨h23, z1, z2⟩ := fqDrop_ext (l₁ := []) (y2.get ctx _ (by simp)) y2
  obtain ⟨h24, aa1, aa2⟩ := drop_ext (l₁ := cells d) (l₂ := []) z2 trivial
  rw [List.append_nil] at aa2
  refine ⟨n, d, h24, ?_, hc, hlen, aa2⟩
  unfold countNaive
  simp only [a1, b1, c1, d1, e1, f1, g1, k1, l1, m1, n1, o1, p1, q1, r1, s1, t1, u1, v1, w1, x1, y1, z1, aa1, Res.bind_ok]
  rfl

end Hycu.Memory
