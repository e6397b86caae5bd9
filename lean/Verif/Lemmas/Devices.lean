import Verif.Spec.Devices
import Verif.Lemmas.Stream

/-!
Lemmas for C69.
-/

namespace Hycu

theorem showAux_lead : ∀ (fuel n : Nat), n < fuel → 0 < n → (showAux fuel n).head? ≠ some '0' := by
  intro fuel
  induction fuel with
  | zero => intro n h; omega
  | succ fuel ih =>
    intro n hn h0
    unfold showAux
    split
    · rename_i h
      have : n = 1 ∨ n = 2 ∨ n = 3 ∨ n = 4 ∨ n = 5 ∨ n = 6 ∨ n = 7 ∨ n = 8 ∨ n = 9 := by omega
      rcases this with rfl | rfl | rfl | rfl | rfl | rfl | rfl | rfl | rfl <;> decide
    · rename_i h
      have h1 := ih (n / 10) (by omega) (by omega)
      have h2 : showAux fuel (n / 10) ≠ [] := (showAux_spec fuel (n / 10) (by omega)).1
      obtain ⟨c, l, hl⟩ := List.exists_cons_of_ne_nil h2
      rw [hl] at h1 ⊢
      exact h1

namespace OpenCL

theorem polySize_options (d : Nat) : polySize (buildOptions d) = some (u32 (d + 1)) := by
  have hd : (buildOptions d).drop 12 = showNat (u32 (d + 1)) := rfl
  unfold polySize
  rw [if_pos (show "-DPOLY_SIZE=".toList <+: buildOptions d from List.prefix_append _ _)]
  simp only [hd]
  rw [if_pos, showNat_val]
  refine ⟨showNat_ne _, showNat_digit _, fun h => ?_⟩
  rcases Nat.eq_zero_or_pos (u32 (d + 1)) with h0 | h0
  · rw [h0]
    rfl
  · exact absurd h (showAux_lead _ _ (by omega) h0)

variable {D : Type}

theorem vendorOf_append (pre : List (Platform D)) (p : Platform D) (ps : List (Platform D)) :
    vendorOf (pre ++ p :: ps) pre.length =
      p.vendor.getD ((pre.filterMap Platform.vendor).getLast?.getD []) := by
  unfold vendorOf
  have : (pre ++ p :: ps).take (pre.length + 1) = pre ++ [p] := by
    rw [List.take_append]
    simp
  rw [this, List.filterMap_append]
  cases hv : p.vendor with
  | none => simp [hv]
  | some v => simp [hv]

theorem pickPlatforms_spec : ∀ (ps pre : List (Platform D)) (vs : List (List Char)) (last : List Char),
    last = (pre.filterMap Platform.vendor).getLast?.getD [] →
    (∀ v, v ∈ vs ↔ ∃ j, j < pre.length ∧ vendorOf (pre ++ ps) j = v) →
    pickPlatforms ps last vs = ((ps.zipIdx pre.length).filter fun x =>
      ∀ j, j < x.2 → vendorOf (pre ++ ps) j ≠ vendorOf (pre ++ ps) x.2).map Prod.fst
  | [], _, _, _, _, _ => rfl
  | p :: ps, pre, vs, last, hl, hv => by
    have ha : pre ++ p :: ps = (pre ++ [p]) ++ ps := by simp
    have hlen : (pre ++ [p]).length = pre.length + 1 := by simp
    have h1 := vendorOf_append pre p ps
    rw [← hl] at h1
    unfold pickPlatforms
    dsimp only
    rw [← h1]
    have hlast : vendorOf (pre ++ p :: ps) pre.length =
        ((pre ++ [p]).filterMap Platform.vendor).getLast?.getD [] := by
      rw [h1, hl, List.filterMap_append]
      cases hp : p.vendor with
      | none => simp [hp]
      | some v => simp [hp]
    have hex : ∀ v, (∃ j, j < pre.length + 1 ∧ vendorOf (pre ++ p :: ps) j = v) ↔
        (v ∈ vs ∨ v = vendorOf (pre ++ p :: ps) pre.length) := by
      intro v
      rw [hv v]
      constructor
      · rintro ⟨j, hj, rfl⟩
        rcases Nat.lt_succ_iff_lt_or_eq.1 hj with hj | rfl
        · exact Or.inl ⟨j, hj, rfl⟩
        · exact Or.inr rfl
      · rintro (⟨j, hj, rfl⟩ | rfl)
        · exact ⟨j, by omega, rfl⟩
        · exact ⟨pre.length, by omega, rfl⟩
    rw [List.zipIdx_cons, List.filter_cons]
    by_cases hm : vendorOf (pre ++ p :: ps) pre.length ∈ vs
    · rw [if_pos hm, if_neg]
      · rw [pickPlatforms_spec ps (pre ++ [p]) vs _ hlast fun v => ?_, hlen, ← ha]
        rw [← ha, hlen, hex]
        constructor
        · exact Or.inl
        · rintro (h | rfl)
          · exact h
          · exact hm
      · obtain ⟨j, hj, he⟩ := (hv _).1 hm
        simp only [decide_eq_true_eq]
        exact fun h => h j hj he
    · rw [if_neg hm, if_pos]
      · rw [List.map_cons, pickPlatforms_spec ps (pre ++ [p]) _ _ hlast fun v => ?_, hlen, ← ha]
        rw [← ha, hlen, hex, List.mem_append, List.mem_singleton]
      · simp only [decide_eq_true_eq]
        exact fun j hj he => hm ((hv _).2 ⟨j, hj, he⟩)

theorem addDevices_spec : ∀ (ps : List (Platform D)) (ds v : List D), (addDevices ps (ds, v)).1 = ds ++ ps.flatMap Platform.listed
  | [], ds, v => (List.append_nil ds).symm
  | p :: ps, ds, v => by
    unfold addDevices
    dsimp only
    rw [addDevices_spec ps, List.flatMap_cons]
    unfold Platform.listed getDevices
    simp only [List.append_assoc]

/-- The programs that have been built. -/
structure Built (ds : List Nat) (cache : OMap Nat Program) : Prop where
  sorted : OMap.Sorted cache
  find : ∀ d, cache.find? d = if d ∈ ds then some ⟨d, buildOptions d⟩ else none

theorem Built.request {ds : List Nat} {cache cache' : OMap Nat Program} {builds : List Char → Bool} {d : Nat} {p : Program}
    (h : Built ds cache) (hs : programEvaluation builds cache d = .ok (cache', p)) :
    Built (ds ++ [d]) cache' ∧ p = ⟨d, buildOptions d⟩ ∧ (d ∈ ds ∨ builds (buildOptions d) = true) := by
  have hf := h.find d
  unfold programEvaluation at hs
  by_cases hd : d ∈ ds
  · rw [if_pos hd] at hf
    rw [hf] at hs
    cases hs
    refine ⟨⟨h.sorted, fun e => ?_⟩, rfl, Or.inl hd⟩
    rw [h.find e]
    congr 1
    simp only [List.mem_append, List.mem_singleton, eq_iff_iff]
    exact ⟨Or.inl, by rintro (h | rfl); exacts [h, hd]⟩
  · rw [if_neg hd] at hf
    rw [hf] at hs
    dsimp only at hs
    unfold makeProgram at hs
    by_cases hb : builds (buildOptions d) = true
    · rw [if_pos hb, Res.bind_ok] at hs
      simp only [OMap.find?_set_self h.sorted] at hs
      cases hs
      refine ⟨⟨OMap.sorted_set h.sorted _ _, fun e => ?_⟩, rfl, Or.inr hb⟩
      rw [OMap.find?_set h.sorted, h.find e]
      by_cases he : e = d
      · subst he
        rw [if_pos rfl, if_pos (by simp)]
      · rw [if_neg he]
        congr 1
        simp [he]
    · rw [if_neg hb] at hs
      cases hs

theorem Built.requests {builds : List Char → Bool} {ds : List Nat} {cache : OMap Nat Program}
    (h : OpenCL.requests builds ds = .ok cache) : Built ds cache := by
  have key : ∀ (es ds : List Nat) (c : OMap Nat Program), Built ds c → (es.foldlM (fun cache d => do
      let r ← programEvaluation builds cache d
      pure r.1) c) = .ok cache → Built (ds ++ es) cache := by
    intro es
    induction es with
    | nil =>
      intro ds c hc he
      cases he
      rw [List.append_nil]
      exact hc
    | cons e es ih =>
      intro ds c hc he
      rw [List.foldlM_cons] at he
      obtain ⟨c', h1, h2⟩ := Res.bind_eq_ok.1 he
      obtain ⟨⟨c'', p⟩, h3, h4⟩ := Res.bind_eq_ok.1 h1
      cases h4
      have := ih (ds ++ [e]) _ (hc.request h3).1 h2
      rwa [List.append_assoc] at this
  have := key ds [] [] ⟨OMap.sorted_nil, fun d => rfl⟩ h
  exact this

end OpenCL
end Hycu
