import Verif.Model.TablesLoop
import Verif.Props.Range

/-!
C85: products of exponents that do not fit into `unsigned int`.
-/

namespace Hycu

variable {w : Flint} {c : ConfigNode}

theorem tablesLoop_eq {p r : Nat} (hr : 0 < r) : ∀ k n, k < n → k * r < 4294967296 →
    w.tablesLoop p r n (k * r) = ((List.range k).reverse.map fun j => (j + 1) * r).mapM (w.reductionTable p)
  | 0, n + 1, _, _ => by simp [Flint.tablesLoop]
  | k + 1, n + 1, hn, hlt => by
    have hs : Compute.sizeSub ((k + 1) * r) r = k * r := by
      have : (k + 1) * r = k * r + r := Nat.succ_mul k r
      unfold Compute.sizeSub
      rw [if_pos (by omega)]
      omega
    have hk : k * r < 4294967296 := by
      have : (k + 1) * r = k * r + r := Nat.succ_mul k r
      omega
    unfold Flint.tablesLoop
    rw [if_pos (Nat.mul_pos (Nat.succ_pos k) hr), hs, tablesLoop_eq hr k n (by omega) hk, u32_of_lt hlt, List.range_succ,
      List.reverse_append, List.reverse_singleton, List.singleton_append, List.map_cons, List.mapM_cons]

theorem tablesLoop_passes {p r : Nat} {s : Nat} (hr : r < 4294967296) (hs : 0 < s) (hsr : s < r)
    (hb : w.reductionTable p (4294967296 - (r - s)) = .ub) : ∀ k n, k * r + s < 4294967296 →
    (∀ l, w.tablesLoop p r n (k * r + s) ≠ .ok l) ∧
    ((∀ j ≤ k, ∃ t, w.reductionTable p (j * r + s) = .ok t) → k + 2 ≤ n → w.tablesLoop p r n (k * r + s) = .ub)
  | k, 0, _ => ⟨fun l h => (by cases h), fun _ h => (by omega)⟩
  | 0, n + 1, hlt => by
    have h1 : Compute.sizeSub (0 * r + s) r = 18446744073709551616 - (r - s) := by
      unfold Compute.sizeSub
      rw [Nat.zero_mul, Nat.zero_add, if_neg (by omega)]
    have h2 : u32 (18446744073709551616 - (r - s)) = 4294967296 - (r - s) := by unfold u32; omega
    have last : ∀ m, (∀ l, w.tablesLoop p r m (18446744073709551616 - (r - s)) ≠ .ok l) ∧
        (0 < m → w.tablesLoop p r m (18446744073709551616 - (r - s)) = .ub) := by
      intro m
      cases m with
      | zero => exact ⟨fun l h => (by cases h), fun h => absurd h (Nat.lt_irrefl 0)⟩
      | succ m =>
        have : w.tablesLoop p r (m + 1) (18446744073709551616 - (r - s)) = .ub := by
          unfold Flint.tablesLoop
          rw [if_pos (by omega), h2, hb]
          rfl
        exact ⟨fun l h => (by rw [this] at h; cases h), fun _ => this⟩
    unfold Flint.tablesLoop
    rw [if_pos (by omega), h1, u32_of_lt hlt]
    constructor
    · intro l h
      obtain ⟨t, _, h⟩ := Res.bind_eq_ok.1 h
      obtain ⟨l', h, _⟩ := Res.bind_eq_ok.1 h
      exact (last n).1 l' h
    · intro ht hn
      obtain ⟨t, ht⟩ := ht 0 (Nat.le_refl 0)
      rw [ht, Res.bind_ok, (last n).2 (by omega)]
      rfl
  | k + 1, n + 1, hlt => by
    have e : (k + 1) * r = k * r + r := Nat.succ_mul k r
    have h1 : Compute.sizeSub ((k + 1) * r + s) r = k * r + s := by
      unfold Compute.sizeSub
      rw [if_pos (by omega)]
      omega
    have ih := tablesLoop_passes hr hs hsr hb k n (by omega)
    unfold Flint.tablesLoop
    rw [if_pos (by omega), h1, u32_of_lt hlt]
    constructor
    · intro l h
      obtain ⟨t, _, h⟩ := Res.bind_eq_ok.1 h
      obtain ⟨l', h, _⟩ := Res.bind_eq_ok.1 h
      exact ih.1 l' h
    · intro ht hn
      obtain ⟨t, h2⟩ := ht (k + 1) (Nat.le_refl _)
      rw [h2, Res.bind_ok, ih.2 (fun j hj => ht j (by omega)) (by omega)]
      rfl

/-- C85: if the product fits, or wraps around to a multiple of the exponent of the field, the loop makes the tables that
are used elsewhere in the model. -/
theorem C85_loop (w : Flint) (hr : 0 < c.primeExponent)
    (h : c.primeExponent ∣ c.countExponent * c.primeExponent % 4294967296) :
    Gives (w.tablesInLoop c) (w.reductionTables c) := by
  obtain ⟨k, hk⟩ := h
  have hlt : k * c.primeExponent < 4294967296 := by
    rw [Nat.mul_comm, ← hk]
    exact Nat.mod_lt _ (by decide)
  have hu : u32 (c.countExponent * c.primeExponent) = k * c.primeExponent := by
    unfold u32
    rw [hk, Nat.mul_comm]
  refine ⟨k + 1, fun n hn => ?_⟩
  unfold Flint.tablesInLoop Flint.reductionTables Compute.exponents
  have h1 : k ≤ k * c.primeExponent := Nat.le_mul_of_pos_right k hr
  rw [hu, tablesLoop_eq hr k n (by omega) hlt, exponentsLoop_eq hr k _ (by omega)]
  rfl

/-- C85: if the product wraps around to `m` times the exponent of the field, the tables and the result of every block are
those for the smaller count exponent `m`. -/
theorem C85_fewer (w : Flint) {m : Nat} (h : c.countExponent * c.primeExponent % 4294967296 = m * c.primeExponent) :
    w.reductionTables c = w.reductionTables { c with countExponent := m } ∧
    ∀ b, w.env.compute c b = w.env.compute { c with countExponent := m } b := by
  have hlt : m * c.primeExponent < 4294967296 := h ▸ Nat.mod_lt _ (by decide)
  have e : w.reductionTables c = w.reductionTables { c with countExponent := m } := by
    unfold Flint.reductionTables Compute.exponents
    have h1 : u32 (c.countExponent * c.primeExponent) = m * c.primeExponent := h
    have h2 : u32 (m * c.primeExponent) = m * c.primeExponent := u32_of_lt hlt
    simp only [h1, h2]
  refine ⟨e, fun b => ?_⟩
  show (w.fqTable c.prime c.primeExponent >>= fun table => w.reductionTables c >>= fun rts =>
    Compute.block (w.poly c.prime c.primeExponent) table rts b) = _
  rw [e]
  rfl

/-- C85: if it wraps around to something that is not a multiple of the exponent of the field, the loop passes by 0, and the
tables are never made; if those for the exponents above 0 can be made, the behaviour is undefined after them. -/
theorem C85_passes (h : Presents w { c with countExponent := 1 }) (hr : c.primeExponent < 2147483648)
    (hd : ¬ c.primeExponent ∣ c.countExponent * c.primeExponent % 4294967296) :
    (∀ n l, w.tablesInLoop c n ≠ .ok l) ∧
    ((∀ j, j * c.primeExponent ≤ c.countExponent * c.primeExponent % 4294967296 →
        ∃ t, w.reductionTable c.prime (c.countExponent * c.primeExponent % 4294967296 - j * c.primeExponent) = .ok t) →
      Gives (w.tablesInLoop c) .ub) := by
  let _ := h.field
  let _ := h.fintype
  let _ := h.decEq
  generalize hW : c.countExponent * c.primeExponent % 4294967296 = W at *
  have hWlt : W < 4294967296 := hW ▸ Nat.mod_lt _ (by decide)
  have hr0 : 0 < c.primeExponent := h.exponent_pos
  have hs : 0 < W % c.primeExponent := Nat.pos_of_ne_zero fun e => hd (Nat.dvd_of_mod_eq_zero e)
  have hsr : W % c.primeExponent < c.primeExponent := Nat.mod_lt _ hr0
  have hdiv : W / c.primeExponent * c.primeExponent + W % c.primeExponent = W := by
    rw [Nat.mul_comm]
    exact Nat.div_add_mod W c.primeExponent
  have hn : 0 < 4294967296 - (c.primeExponent - W % c.primeExponent) := by omega
  have hub : w.reductionTable c.prime (4294967296 - (c.primeExponent - W % c.primeExponent)) = .ub := by
    have hcard := (h.rep _ hn).card_eq
    have hp : 2 ≤ c.prime := (h.rep _ hn).prime.two_le
    have hbig : 4294967296 ≤ c.prime ^ (4294967296 - (c.primeExponent - W % c.primeExponent)) :=
      calc 4294967296 = 2 ^ 32 := by norm_num
        _ ≤ c.prime ^ 32 := Nat.pow_le_pow_left hp 32
        _ ≤ _ := Nat.pow_le_pow_right (by omega) (by omega)
    exact h.reductionTable _ hn .ub ⟨0, fun n _ => (C14_too_large (h.rep _ hn)
      (by rw [hcard]; exact Nat.lt_of_lt_of_le (by norm_num) hbig) (h.cand _) h.opencl n).1 (by rw [hcard]; exact hbig)⟩
  have key := fun n => tablesLoop_passes (w := w) (p := c.prime) (by omega) hs hsr hub (W / c.primeExponent) n
    (by rw [hdiv]; exact hWlt)
  have hu : u32 (c.countExponent * c.primeExponent) = W := hW
  unfold Flint.tablesInLoop
  simp only [hu, hdiv] at key ⊢
  refine ⟨fun n l => (key n).1 l, fun ht => ⟨W / c.primeExponent + 2, fun n hn => (key n).2 (fun j hj => ?_) hn⟩⟩
  have hj' : (W / c.primeExponent - j) * c.primeExponent + j * c.primeExponent = W / c.primeExponent * c.primeExponent := by
    rw [← Nat.add_mul, Nat.sub_add_cancel hj]
  obtain ⟨t, ht⟩ := ht (W / c.primeExponent - j) (by omega)
  exact ⟨t, by rw [← ht]; congr 1; omega⟩

/-- C85: the points are then counted over `m` fields only: there is one table for each degree up to `m`. -/
theorem C85_counted {m : Nat} (h : Presents w { c with countExponent := m }) (hodd : c.prime ≠ 2)
    (hm : c.countExponent * c.primeExponent % 4294967296 = m * c.primeExponent)
    (hs : c.prime ^ (m * c.primeExponent) ≤ 2147483648) : ∃ rts, w.reductionTables c = .ok rts ∧
      rts.map ReductionTable.primeExponent = (List.range m).reverse.map fun k => (k + 1) * c.primeExponent := by
  rw [(C85_fewer w hm).1]
  exact C80_reduction_tables h hodd hs

/-! ### Non-trivial instances -/

/-- FLINT with the polynomial routines left out. -/
noncomputable def bareFlint (p : Nat) [Fact (Nat.Prime p)] : Flint :=
  galoisFlint p fun _ => ⟨fun _ _ => 0, fun _ => true, fun _ => true, fun _ => [], fun _ => []⟩

/-- Points over `2^30 + 1` extensions of the field of 81 elements. -/
def wrapConfig : ConfigNode := ⟨3, 4, 1, false, 1073741825, ['d'], 1⟩

/-- Hypotheses of `C85_loop`, `C85_fewer` and `C85_counted`: the configuration is accepted, and points are counted over one
field. -/
example : (∀ (fs : FileSystem) (create : Res Bool), (∃ d, fs ['d'] = some d) →
      wrapConfig.verify fs create = .ok (fs, true)) ∧
    0 < wrapConfig.primeExponent ∧
    wrapConfig.primeExponent ∣ wrapConfig.countExponent * wrapConfig.primeExponent % 4294967296 ∧
    wrapConfig.countExponent * wrapConfig.primeExponent % 4294967296 = 1 * wrapConfig.primeExponent ∧
    wrapConfig.prime ^ (1 * wrapConfig.primeExponent) ≤ 2147483648 ∧
    ∃ w : Flint, Nonempty (Presents w { wrapConfig with countExponent := 1 }) := by
  have : Fact (Nat.Prime 3) := ⟨by decide⟩
  refine ⟨?_, by decide, by decide, by decide, by decide, bareFlint 3,
    ⟨galoisPresents 3 _ _ rfl (by decide) (by decide) (by decide)⟩⟩
  rintro fs create ⟨d, hd⟩
  simp only [ConfigNode.verify]
  rw [if_pos (by decide), if_pos (by simp [wrapConfig, hd])]
  rfl

/-- Points over 1431655766 extensions of the field of 27 elements. -/
def passConfig : ConfigNode := ⟨3, 3, 1, false, 1431655766, ['d'], 1⟩

/-- Hypotheses of `C85_passes`: the first table is made, for the field of 9 elements. -/
example : ∃ w : Flint, Nonempty (Presents w { passConfig with countExponent := 1 }) ∧
    passConfig.primeExponent < 2147483648 ∧
    ¬ passConfig.primeExponent ∣ passConfig.countExponent * passConfig.primeExponent % 4294967296 ∧
    ∀ j, j * passConfig.primeExponent ≤ passConfig.countExponent * passConfig.primeExponent % 4294967296 →
      ∃ t, w.reductionTable passConfig.prime
        (passConfig.countExponent * passConfig.primeExponent % 4294967296 - j * passConfig.primeExponent) = .ok t := by
  have : Fact (Nat.Prime 3) := ⟨by decide⟩
  refine ⟨bareFlint 3, ⟨galoisPresents 3 _ _ rfl (by decide) (by decide) (by decide)⟩, by decide, by decide, ?_⟩
  intro j hj
  have hj : j * 3 ≤ 2 := hj
  obtain rfl : j = 0 := by omega
  obtain ⟨rts, h1, h2⟩ := C80_reduction_tables (w := bareFlint 3) (c := ⟨3, 2, 1, false, 1, ['d'], 1⟩)
    (galoisPresents 3 _ _ rfl (by decide) (by decide) (by decide)) (by decide) (by decide)
  unfold Flint.reductionTables at h1
  rw [exponents_eq (by decide) (by decide), Res.bind_ok] at h1
  have h1 : ([2].mapM ((bareFlint 3).reductionTable 3) : Res _) = .ok rts := h1
  rw [List.mapM_cons] at h1
  obtain ⟨t, ht, -⟩ := Res.bind_eq_ok.1 h1
  exact ⟨t, ht⟩

end Hycu
