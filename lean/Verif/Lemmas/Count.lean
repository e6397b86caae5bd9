import Mathlib.Tactic.Ring
import Mathlib.Tactic.LinearCombination
import Verif.Model.Curve
import Verif.Lemmas.Points
import Verif.Lemmas.Tables

/-!
Lemmas about the counting functions of `Curve`.
-/

namespace Hycu

open Polynomial Fintype

variable {K : Type} [Field K] [Fintype K]

/-- What the counting functions need to know about the tables. -/
structure GoodTables (g : K) (ert inc : List Nat) : Prop where
  prim : Primitive g
  ert : ∀ i, i < 2 * (card K - 1) → ert[i]? = some (i % (card K - 1))
  inc : ∀ i, i < card K → ∃ j, j < card K ∧ inc[i]? = some j ∧
    eltOf g (card K) j = 1 + eltOf g (card K) i

section Eval
variable {g : K} {ert inc : List Nat} (ht : GoodTables g ert inc)
include ht

theorem GoodTables.rd_ert {i : Nat} (hi : i < 2 * (card K - 1)) :
    rd ert i = .ok (i % (card K - 1)) := rd_eq_ok.2 (ht.ert i hi)

theorem evalStep_spec {add : Nat → Nat → Res Nat}
    (hadd : ∀ a b, a + b < 2 * (card K - 1) → add a b = .ok (a + b))
    {c xpw f : Nat} (hc : c < card K) (hx : xpw < card K - 1) (hf : f < card K) :
    ∃ f', f' < card K ∧ Curve.evalStep add ert inc (card K - 1) c xpw f = .ok f' ∧
      eltOf g (card K) f' = eltOf g (card K) f + eltOf g (card K) c * g ^ xpw := by
  have hq := two_le_card (F := K)
  have hmod : ∀ n, n % (card K - 1) < card K - 1 := fun n => Nat.mod_lt _ (by omega)
  unfold Curve.evalStep
  by_cases hc0 : c = card K - 1
  · rw [if_neg (by simpa using hc0)]
    exact ⟨f, hf, rfl, by rw [hc0, eltOf_zero_index]; ring⟩
  · rw [if_pos hc0, hadd c xpw (by omega), Res.bind_ok, Res.bind_ok, ht.rd_ert (by omega)]
    have hterm : eltOf g (card K) c * g ^ xpw = g ^ ((c + xpw) % (card K - 1)) := by
      rw [ht.prim.pow_mod, eltOf_of_ne hc0, pow_add]
    have h1 := hmod (c + xpw)
    rw [hterm]
    generalize (c + xpw) % (card K - 1) = tmp at *
    by_cases hf0 : f = card K - 1
    · rw [if_pos hf0]
      refine ⟨tmp, by omega, rfl, ?_⟩
      rw [hf0, eltOf_zero_index, eltOf_of_ne (by omega), zero_add]
    · rw [if_neg hf0, Res.bind_ok, eltOf_of_ne hf0]
      -- the two indices in order
      obtain ⟨lo, hi, hlh, hle, hhi, hsum⟩ : ∃ lo hi, (if tmp ≤ f then (tmp, f) else (f, tmp)) = (lo, hi) ∧
          lo ≤ hi ∧ hi < card K - 1 ∧ g ^ f + g ^ tmp = g ^ lo * (1 + g ^ (hi - lo)) := by
        by_cases hle : tmp ≤ f
        · refine ⟨tmp, f, if_pos hle, hle, by omega, ?_⟩
          rw [mul_add, mul_one, ← pow_add, Nat.add_sub_cancel' hle]; ring
        · refine ⟨f, tmp, if_neg hle, by omega, by omega, ?_⟩
          rw [mul_add, mul_one, ← pow_add, Nat.add_sub_cancel' (by omega)]
      rw [hlh]
      simp only
      obtain ⟨j, hj1, hj2, hj3⟩ := ht.inc (hi - lo) (by omega)
      rw [eltOf_of_ne (e := hi - lo) (by omega)] at hj3
      rw [u32sub_of_le hle, rd_eq_ok.2 hj2, Res.bind_ok, hsum, ← hj3]
      by_cases hj0 : j = card K - 1
      · rw [if_neg (by simpa using hj0)]
        exact ⟨card K - 1, by omega, rfl, by rw [hj0]; simp [eltOf_zero_index]⟩
      · rw [if_pos hj0, hadd lo j (by omega), Res.bind_ok, ht.rd_ert (by omega)]
        have h2 := hmod (lo + j)
        refine ⟨(lo + j) % (card K - 1), by omega, rfl, ?_⟩
        rw [eltOf_of_ne (by omega), eltOf_of_ne hj0, ht.prim.pow_mod, pow_add]

omit [Field K] ht in
theorem addU32_ok (hQ : card K ≤ 2147483648) (a b : Nat) (h : a + b < 2 * (card K - 1)) :
    Curve.addU32 a b = .ok (a + b) := by
  rw [Curve.addU32, u32_of_lt (by omega)]

omit [Field K] ht in
theorem addI32_ok (hQ : card K ≤ 1073741824) (a b : Nat) (h : a + b < 2 * (card K - 1)) :
    Curve.addI32 a b = .ok (a + b) := by
  rw [Curve.addI32, if_pos (by omega)]

theorem evalLoop_spec {add : Nat → Nat → Res Nat}
    (hadd : ∀ a b, a + b < 2 * (card K - 1) → add a b = .ok (a + b)) {x : Nat} (hx : x ≤ card K - 1) :
    ∀ (cs : List Nat) (xpw f : Nat), (∀ c ∈ cs, c < card K) → xpw < 2 * (card K - 1) → f < card K →
    ∃ f', f' < card K ∧ Curve.evalLoop add ert inc (card K - 1) x cs xpw f = .ok f' ∧
      eltOf g (card K) f' = eltOf g (card K) f +
        g ^ xpw * (polyOfList (cs.map (eltOf g (card K)))).eval (g ^ x)
  | [], xpw, f, _, _, hf => ⟨f, hf, rfl, by simp [polyOfList]⟩
  | c :: cs, xpw, f, hcs, hxpw, hf => by
    have hq := two_le_card (F := K)
    have hm := Nat.mod_lt xpw (show card K - 1 > 0 by omega)
    obtain ⟨f1, h1, h2, h3⟩ := evalStep_spec ht hadd
      (hcs c List.mem_cons_self) hm hf
    obtain ⟨f2, h4, h5, h6⟩ := evalLoop_spec hadd hx cs (xpw % (card K - 1) + x) f1
      (fun d hd => hcs d (List.mem_cons_of_mem _ hd)) (by omega) h1
    refine ⟨f2, h4, ?_, ?_⟩
    · rw [Curve.evalLoop, ht.rd_ert hxpw, Res.bind_ok, h2, Res.bind_ok, hadd _ _ (by omega),
        Res.bind_ok, h5]
    · rw [h6, h3, pow_add, ht.prim.pow_mod]
      simp only [List.map_cons, polyOfList, eval_add, eval_C, eval_mul, eval_X]
      ring

theorem kernelLoop_spec (hQ : card K ≤ 1073741824) {x : Nat} (hx : x < card K - 1) :
    ∀ (cs : List Nat) (xpw f : Nat), (∀ c ∈ cs, c < card K) → xpw < card K - 1 → f < card K →
    ∃ f', f' < card K ∧ Curve.kernelLoop ert inc (card K - 1) x cs xpw f = .ok f' ∧
      eltOf g (card K) f' = eltOf g (card K) f +
        g ^ (xpw + x) * (polyOfList (cs.map (eltOf g (card K)))).eval (g ^ x)
  | [], xpw, f, _, _, hf => ⟨f, hf, rfl, by simp [polyOfList]⟩
  | c :: cs, xpw, f, hcs, hxpw, hf => by
    have hq := two_le_card (F := K)
    have hm := Nat.mod_lt (xpw + x) (show card K - 1 > 0 by omega)
    obtain ⟨f1, h1, h2, h3⟩ := evalStep_spec ht (fun a b h => addI32_ok hQ a b h)
      (hcs c List.mem_cons_self) hm hf
    obtain ⟨f2, h4, h5, h6⟩ := kernelLoop_spec hQ hx cs ((xpw + x) % (card K - 1)) f1
      (fun d hd => hcs d (List.mem_cons_of_mem _ hd)) hm h1
    refine ⟨f2, h4, ?_, ?_⟩
    · rw [Curve.kernelLoop, addI32_ok hQ _ _ (by omega), Res.bind_ok, ht.rd_ert (by omega),
        Res.bind_ok, h2, Res.bind_ok, h5]
    · rw [h6, h3, pow_add _ _ x, ht.prim.pow_mod]
      simp only [List.map_cons, polyOfList, eval_add, eval_C, eval_mul, eval_X]
      ring

theorem evalCpu_spec {add : Nat → Nat → Res Nat}
    (hadd : ∀ a b, a + b < 2 * (card K - 1) → add a b = .ok (a + b)) {x : Nat} (hx : x ≤ card K - 1) {cs : List Nat}
    (hne : cs ≠ []) (hcs : ∀ c ∈ cs, c < card K) :
    ∃ f', f' < card K ∧ Curve.evalCpu add ert inc (card K - 1) cs x = .ok f' ∧
      eltOf g (card K) f' = (polyOfList (cs.map (eltOf g (card K)))).eval (g ^ x) := by
  have hq := two_le_card (F := K)
  cases cs with
  | nil => exact absurd rfl hne
  | cons c cs =>
    obtain ⟨f, h1, h2, h3⟩ := evalLoop_spec ht hadd hx cs x c
      (fun d hd => hcs d (List.mem_cons_of_mem _ hd)) (by omega) (hcs c List.mem_cons_self)
    refine ⟨f, h1, ?_, ?_⟩
    · simp only [Curve.evalCpu, rd, List.getElem?_cons_zero, Res.bind_ok, List.tail_cons]
      exact h2
    · rw [h3]
      simp only [List.map_cons, polyOfList, eval_add, eval_C, eval_mul, eval_X]

theorem evalKernel_spec (hQ : card K ≤ 1073741824) {x : Nat} (hx : x < card K - 1) {cs : List Nat}
    (hne : cs ≠ []) (hcs : ∀ c ∈ cs, c < card K) :
    ∃ f', f' < card K ∧ Curve.evalKernel ert inc (card K - 1) cs x = .ok f' ∧
      eltOf g (card K) f' = (polyOfList (cs.map (eltOf g (card K)))).eval (g ^ x) := by
  have hq := two_le_card (F := K)
  cases cs with
  | nil => exact absurd rfl hne
  | cons c cs =>
    obtain ⟨f, h1, h2, h3⟩ := kernelLoop_spec ht hQ hx cs 0 c
      (fun d hd => hcs d (List.mem_cons_of_mem _ hd)) (by omega) (hcs c List.mem_cons_self)
    refine ⟨f, h1, ?_, ?_⟩
    · simp only [Curve.evalKernel, rd, List.getElem?_cons_zero, Res.bind_ok, List.tail_cons]
      exact h2
    · rw [h3, zero_add]
      simp only [List.map_cons, polyOfList, eval_add, eval_C, eval_mul, eval_X]

end Eval

/-! ### Summation -/

theorem tally_eq {pred f : Nat} {n : Nat × Nat} (h1 : n.1 + unr pred f < 4294967296)
    (h2 : n.2 + ram pred f < 4294967296) :
    Curve.tally pred f n = (n.1 + unr pred f, n.2 + ram pred f) := by
  unfold Curve.tally unr ram at *
  split
  · simp_all [u32_of_lt]
  · split
    · simp_all [u32_of_lt]
    · simp_all

theorem foldlM_tally (pred : Nat) (ev : Nat → Res Nat) (fx : Nat → Nat) :
    ∀ (l : List Nat) (n : Nat × Nat), (∀ x ∈ l, ev x = .ok (fx x)) →
    n.1 + (l.map fun x => unr pred (fx x)).sum < 4294967296 →
    n.2 + (l.map fun x => ram pred (fx x)).sum < 4294967296 →
    l.foldlM (fun n x => do
      let f ← ev x
      pure (Curve.tally pred f n)) n =
    .ok (n.1 + (l.map fun x => unr pred (fx x)).sum, n.2 + (l.map fun x => ram pred (fx x)).sum)
  | [], n, _, _, _ => by simp
  | x :: l, n, h, h1, h2 => by
    simp only [List.map_cons, List.sum_cons] at h1 h2
    rw [List.foldlM_cons, h x List.mem_cons_self, Res.bind_ok, Res.pure_eq, Res.bind_ok,
      tally_eq (by omega) (by omega),
      foldlM_tally pred ev fx l _ (fun y hy => h y (List.mem_cons_of_mem _ hy)) (by simpa using by omega)
        (by simpa using by omega)]
    simp [Nat.add_assoc]

theorem accumulate_from : ∀ (l : List Nat) (n : Nat), n + l.sum < 2147483648 →
    l.foldlM Curve.addI32 n = .ok (n + l.sum)
  | [], n, _ => by simp
  | a :: l, n, h => by
    rw [List.sum_cons] at h
    rw [List.foldlM_cons, Curve.addI32, if_pos (by omega), Res.bind_ok, accumulate_from l _ (by omega),
      List.sum_cons, Nat.add_assoc]

theorem accumulate_ok {l : List Nat} (h : l.sum < 2147483648) : Curve.accumulate l = .ok l.sum := by
  rw [Curve.accumulate, accumulate_from l 0 (by omega), Nat.zero_add]

theorem mapM_ok {α β : Type} {f : α → Res β} {h : α → β} : ∀ (l : List α),
    (∀ x ∈ l, f x = .ok (h x)) → l.mapM f = .ok (l.map h)
  | [], _ => rfl
  | a :: l, hl => by
    rw [List.mapM_cons, hl a List.mem_cons_self, Res.bind_ok,
      mapM_ok l (fun x hx => hl x (List.mem_cons_of_mem _ hx))]
    rfl

theorem kernelOut_eq (pred f : Nat) : Curve.kernelOut pred f = (unr pred f, ram pred f) := by
  unfold Curve.kernelOut unr ram
  split
  · rfl
  · rcases Nat.mod_two_eq_zero_or_one f with h | h <;> simp [h]

theorem sum_le_mul {l : List Nat} {b : Nat} (h : ∀ x ∈ l, x ≤ b) : l.sum ≤ l.length * b := by
  induction l with
  | nil => simp
  | cons a l ih =>
    have h1 := h a List.mem_cons_self
    have h2 := ih (fun x hx => h x (List.mem_cons_of_mem _ hx))
    rw [List.sum_cons, List.length_cons, Nat.add_mul]
    omega

theorem unr_le (pred f : Nat) : unr pred f ≤ 2 := by unfold unr; split <;> [omega; split <;> omega]
theorem ram_le (pred f : Nat) : ram pred f ≤ 1 := by unfold ram; split <;> omega

/-! ### The whole count -/

section Count
variable {t : ReductionTable} {g : K}

/-- What `count` needs to know about the reduction table. -/
structure GoodReduction (g : K) (t : ReductionTable) : Prop where
  pred : t.primePowerPred = card K - 1
  tables : GoodTables g t.exponentReductionTable t.incrementationTable

/-- Contribution of the non-zero `x` to the counts, for coefficients in `K`. -/
noncomputable def affUnr (g : K) (f : K[X]) : Nat :=
  ((List.range (card K - 1)).map fun i => numSqrt (f.eval (g ^ i))).sum

open Classical in
/-- Number of non-zero roots. -/
noncomputable def affRam (g : K) (f : K[X]) : Nat :=
  ((List.range (card K - 1)).map fun i => if f.eval (g ^ i) = 0 then 1 else 0).sum

theorem range'_shift_sum {g : K} (hg : Primitive g) (s : K → Nat) :
    ((List.range' 1 (card K - 1)).map fun i => s (g ^ i)).sum =
      ((List.range (card K - 1)).map fun i => s (g ^ i)).sum := by
  have h1 := sum_field hg s
  have h2 := sum_field' hg s
  omega

theorem affUnr_eq_unr {g : K} (hg : Primitive g) (hodd : card K % 2 = 1) {f : K[X]} {fx : Nat → Nat}
    {l : List Nat} (h : ∀ x ∈ l, eltOf g (card K) (fx x) = f.eval (g ^ x)) :
    (l.map fun x => unr (card K - 1) (fx x)) = l.map fun x => numSqrt (f.eval (g ^ x)) := by
  apply List.map_congr_left
  intro x hx
  rw [unr_eq hg hodd, h x hx]

open Classical in
theorem affRam_eq_ram {g : K} (hg : Primitive g) {f : K[X]} {fx : Nat → Nat}
    {l : List Nat} (h : ∀ x ∈ l, eltOf g (card K) (fx x) = f.eval (g ^ x)) :
    (l.map fun x => ram (card K - 1) (fx x)) = l.map fun x => if f.eval (g ^ x) = 0 then 1 else 0 := by
  apply List.map_congr_left
  intro x hx
  rw [ram_eq hg, h x hx]

theorem affUnr_le {g : K} (hg : Primitive g) (hodd : card K % 2 = 1) (f : K[X]) :
    affUnr g f ≤ (card K - 1) * 2 := by
  have h := sum_le_mul (l := (List.range (card K - 1)).map fun i => numSqrt (f.eval (g ^ i))) (b := 2)
    (by
      intro x hx
      obtain ⟨i, _, rfl⟩ := List.mem_map.1 hx
      obtain ⟨e, _, he⟩ := hg.eltOf_surj (f.eval (g ^ i))
      rw [← he, ← unr_eq hg hodd]
      exact unr_le _ _)
  simpa [affUnr] using h

theorem affRam_le (g : K) (f : K[X]) : affRam g f ≤ card K - 1 := by
  classical
  have h := sum_le_mul (l := (List.range (card K - 1)).map fun i => if f.eval (g ^ i) = 0 then 1 else 0)
    (b := 1)
    (by
      intro x hx
      obtain ⟨i, _, rfl⟩ := List.mem_map.1 hx
      split <;> omega)
  unfold affRam
  convert h using 1
  simp

theorem countCpu_spec (ht : GoodReduction g t) (hodd : card K % 2 = 1) (hQ : card K ≤ 2147483648)
    {cs : List Nat} (hne : cs ≠ []) (hcs : ∀ c ∈ cs, c < card K) :
    Curve.countCpu t cs (0, 0) = .ok (affUnr g (polyOfList (cs.map (eltOf g (card K)))),
      affRam g (polyOfList (cs.map (eltOf g (card K))))) := by
  classical
  set f := polyOfList (cs.map (eltOf g (card K))) with hf
  have hex : ∀ x, ∃ f', x ≤ card K - 1 → Curve.evalCpu Curve.addU32 t.exponentReductionTable t.incrementationTable
      (card K - 1) cs x = .ok f' ∧ eltOf g (card K) f' = f.eval (g ^ x) := by
    intro x
    by_cases hx : x ≤ card K - 1
    · obtain ⟨f', _, h2, h3⟩ := evalCpu_spec ht.tables (addU32_ok hQ) hx hne hcs
      exact ⟨f', fun _ => ⟨h2, h3⟩⟩
    · exact ⟨0, fun h => absurd h hx⟩
  choose fx hfx using hex
  have hmem : ∀ x ∈ List.range' 1 (card K - 1), x ≤ card K - 1 := by
    intro x hx
    have := List.mem_range'_1.1 hx
    omega
  have hg := ht.tables.prim
  have hU := affUnr_eq_unr hg hodd (f := f) (fx := fx) (l := List.range' 1 (card K - 1))
    (fun x hx => (hfx x (hmem x hx)).2)
  have hR := affRam_eq_ram hg (f := f) (fx := fx) (l := List.range' 1 (card K - 1))
    (fun x hx => (hfx x (hmem x hx)).2)
  have hUs : ((List.range' 1 (card K - 1)).map fun x => unr (card K - 1) (fx x)).sum = affUnr g f := by
    rw [hU]; exact range'_shift_sum hg (fun x => numSqrt (f.eval x))
  have hRs : ((List.range' 1 (card K - 1)).map fun x => ram (card K - 1) (fx x)).sum = affRam g f := by
    rw [hR]; exact range'_shift_sum hg (fun x => if f.eval x = 0 then 1 else 0)
  have h1 := affUnr_le hg hodd f
  have h2 := affRam_le g f
  unfold Curve.countCpu
  rw [ht.pred, foldlM_tally (card K - 1) _ fx _ _ (fun x hx => (hfx x (hmem x hx)).1)
    (by rw [hUs]; simp; omega) (by rw [hRs]; simp; omega), hUs, hRs]
  simp

theorem countOpencl_spec (ht : GoodReduction g t) (hodd : card K % 2 = 1) (hQ : card K ≤ 1073741824)
    {cs : List Nat} (hne : cs ≠ []) (hcs : ∀ c ∈ cs, c < card K) :
    Curve.countOpencl t cs (0, 0) = .ok (affUnr g (polyOfList (cs.map (eltOf g (card K)))),
      affRam g (polyOfList (cs.map (eltOf g (card K))))) := by
  classical
  set f := polyOfList (cs.map (eltOf g (card K))) with hf
  have hex : ∀ x, ∃ f', x < card K - 1 → Curve.evalKernel t.exponentReductionTable t.incrementationTable
      (card K - 1) cs x = .ok f' ∧ eltOf g (card K) f' = f.eval (g ^ x) := by
    intro x
    by_cases hx : x < card K - 1
    · obtain ⟨f', _, h2, h3⟩ := evalKernel_spec ht.tables hQ hx hne hcs
      exact ⟨f', fun _ => ⟨h2, h3⟩⟩
    · exact ⟨0, fun h => absurd h hx⟩
  choose fx hfx using hex
  have hmem : ∀ x ∈ List.range (card K - 1), x < card K - 1 := fun x hx => List.mem_range.1 hx
  have hg := ht.tables.prim
  have hU := affUnr_eq_unr hg hodd (f := f) (fx := fx) (l := List.range (card K - 1))
    (fun x hx => (hfx x (hmem x hx)).2)
  have hR := affRam_eq_ram hg (f := f) (fx := fx) (l := List.range (card K - 1))
    (fun x hx => (hfx x (hmem x hx)).2)
  have hq := two_le_card (F := K)
  have h1 := affUnr_le hg hodd f
  have h2 := affRam_le g f
  unfold Curve.countOpencl
  rw [ht.pred, mapM_ok (h := fun x => (unr (card K - 1) (fx x), ram (card K - 1) (fx x)))]
  · rw [Res.bind_ok, List.map_map, List.map_map]
    simp only [Function.comp_def]
    rw [hU, hR]
    rw [accumulate_ok (by unfold affUnr at h1; omega), Res.bind_ok, accumulate_ok, Res.bind_ok]
    · have e1 : u32 (affUnr g f) = affUnr g f := u32_of_lt (by omega)
      have e2 : u32 (affRam g f) = affRam g f := u32_of_lt (by omega)
      simp only [Nat.zero_add, Res.pure_eq]
      unfold affUnr at e1 ⊢
      unfold affRam at e2 ⊢
      rw [e1, e2]
    · unfold affRam at h2
      exact lt_of_le_of_lt h2 (by omega)
  · intro x hx
    rw [(hfx x (hmem x hx)).1, Res.bind_ok, kernelOut_eq, Res.pure_eq]

end Count

/-! ### Degree, genus and infinity -/

section Infinity
variable {F : Type}

theorem degree_eq {c : Curve F} (hne : c.coeffs ≠ []) (hl : c.coeffs.length < 4294967296) :
    c.degree = c.coeffs.length - 1 := by
  have := List.length_pos_iff.2 hne
  rw [Curve.degree, u32_of_lt hl, u32sub_of_le (by omega)]

theorem infinity_cond {c : Curve F} (hne : c.coeffs ≠ []) (hl : c.coeffs.length < 4294967296) :
    c.degree < u32 (2 * c.genus + 2) ↔ (c.coeffs.length - 1) % 2 = 1 := by
  have hpos := List.length_pos_iff.2 hne
  unfold Curve.genus
  rw [degree_eq hne hl]
  generalize hd : c.coeffs.length - 1 = d
  split
  · rename_i h
    by_cases h0 : d = 0
    · subst h0; simp [u32sub, u32]
    · rw [u32sub_of_le (by omega), u32_of_lt (by omega)]; omega
  · rw [u32sub_of_le (by omega), u32_of_lt (by omega)]; omega

end Infinity

theorem numSqrt_index {K : Type} [Field K] [Fintype K] {g : K} (hg : Primitive g)
    (hodd : card K % 2 = 1) {e : Nat} (h : e ≠ card K - 1) :
    numSqrt (eltOf g (card K) e) = if e % 2 = 0 then 2 else 0 := by
  rw [eltOf_of_ne h, numSqrt_pow hg hodd]

/-- The points of the specification, split as the code computes them. -/
theorem unramified_split {K : Type} [Field K] [Fintype K] {g : K} (hg : Primitive g) (f : K[X]) :
    unramifiedPoints f = affUnr g f + numSqrt (f.eval 0) + numSqrt (f.coeff (2 * halfDegree f)) := by
  unfold unramifiedPoints affUnr
  rw [card_affine, sum_field hg, Nat.add_comm (numSqrt (f.eval 0))]
  rfl

open Classical in
theorem ramified_split {K : Type} [Field K] [Fintype K] {g : K} (hg : Primitive g) (f : K[X]) :
    ramifiedPoints f = affRam g f + (if f.eval 0 = 0 then 1 else 0) +
      (if f.coeff (2 * halfDegree f) = 0 then 1 else 0) := by
  unfold ramifiedPoints affRam
  rw [card_affine_ram, sum_field hg, numSqrt_zero_root, Nat.add_comm (if f.eval 0 = 0 then 1 else 0)]

end Hycu
