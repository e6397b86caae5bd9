import Mathlib.Data.List.Nodup
import Mathlib.Data.List.Basic
import Mathlib.Tactic.Ring

/-
An odometer of wheels whose digit lists may depend on more significant wheels.
-/

namespace Hycu

/-- `l` lists the states visited from `s` by `f` until `f` reports the end. -/
inductive Trace {σ : Type} (f : σ → Option σ) : σ → List σ → Prop
  | last {s : σ} : f s = none → Trace f s [s]
  | cons {s s' : σ} {l : List σ} : f s = some s' → Trace f s' l → Trace f s (s :: l)

/-- One coordinate of the odometer. -/
structure Wheel where
  px : Nat
  first : Nat
  next : List Nat → Option Nat
  digits : List Nat → List Nat

/-- One step with carry, least significant wheel first. -/
def stepW : List Wheel → List Nat → Option (List Nat)
  | [], _ => none
  | w :: ws, t =>
    match w.next t with
    | some x => some (t.set w.px x)
    | none => stepW ws (t.set w.px w.first)

/-- The states visited by the odometer. -/
def enumW : List Wheel → List Nat → List (List Nat)
  | [], s => [s]
  | w :: ws, s => (enumW ws s).flatMap fun t => (w.digits t).map (t.set w.px ·)

/-- The initial state. -/
def initW : List Wheel → List Nat → List Nat
  | [], s => s
  | w :: ws, s => (initW ws s).set w.px w.first

/-- `next` walks along the list of digits. -/
def DigitChain (w : Wheel) (t : List Nat) : List Nat → Prop
  | [] => True
  | d :: l => w.next (t.set w.px d) = l.head? ∧ DigitChain w t l

/-- What the wheels have to satisfy. -/
def GoodWheels (s : List Nat) : List Wheel → Prop
  | [] => True
  | w :: ws =>
    GoodWheels s ws ∧
    w.px < s.length ∧
    (∀ w' ∈ ws, w'.px ≠ w.px) ∧
    (∀ w' ∈ ws, ∀ t x, w'.next (t.set w.px x) = w'.next t) ∧
    (∀ w' ∈ ws, ∀ t x, w'.digits (t.set w.px x) = w'.digits t) ∧
    (∀ t x, w.digits (t.set w.px x) = w.digits t) ∧
    (∀ t ∈ enumW ws s, DigitChain w t (w.digits t) ∧ (w.digits t).head? = some w.first ∧
      (w.digits t).Nodup)

theorem stepW_set {ws : List Wheel} {i : Nat} (h1 : ∀ w ∈ ws, w.px ≠ i)
    (h2 : ∀ w ∈ ws, ∀ t x, w.next (t.set i x) = w.next t) (t : List Nat) (x : Nat) :
    stepW ws (t.set i x) = (stepW ws t).map (·.set i x) := by
  induction ws generalizing t with
  | nil => rfl
  | cons w ws ih =>
    unfold stepW
    rw [h2 w (by simp)]
    cases h : w.next t with
    | some y =>
      simp only [Option.map_some]
      rw [List.set_comm _ _ (h1 w (by simp)).symm]
    | none =>
      simp only
      rw [List.set_comm _ _ (h1 w (by simp)).symm]
      exact ih (fun w' h' => h1 w' (by simp [h'])) (fun w' h' => h2 w' (by simp [h'])) _

theorem trace_digits {w : Wheel} {ws : List Wheel} {t : List Nat} {l : List Nat} {tail : List (List Nat)}
    (hl : l ≠ []) (hc : DigitChain w t l)
    (hstep : ∀ t', stepW ws (t.set w.px w.first) = some t' → Trace (stepW (w :: ws)) t' tail)
    (hend : stepW ws (t.set w.px w.first) = none → tail = []) :
    ∀ d, l.head? = some d → Trace (stepW (w :: ws)) (t.set w.px d) (l.map (t.set w.px ·) ++ tail) := by
  induction l with
  | nil => exact absurd rfl hl
  | cons d l ih =>
    intro d' hd'
    cases hd'
    obtain ⟨hn, hc'⟩ := hc
    cases l with
    | nil =>
      simp only [List.head?_nil] at hn
      simp only [List.map_cons, List.map_nil, List.cons_append, List.nil_append]
      cases hs : stepW ws (t.set w.px w.first) with
      | none =>
        rw [hend hs]
        refine .last ?_
        simp only [stepW, hn, List.set_set, hs]
      | some t' =>
        refine .cons ?_ (hstep t' hs)
        simp only [stepW, hn, List.set_set, hs]
    | cons e l =>
      simp only [List.head?_cons] at hn
      refine .cons (s' := t.set w.px e) ?_ ?_
      · simp only [stepW, hn, List.set_set]
      · exact ih (by simp) hc' e rfl

theorem trace_enumW {s : List Nat} {ws : List Wheel} (hg : GoodWheels s ws) :
    Trace (stepW ws) (initW ws s) (enumW ws s) := by
  induction ws with
  | nil => exact .last rfl
  | cons w ws ih =>
    obtain ⟨hg', hpx, h1, h2, _, _, h5⟩ := hg
    have htr := ih hg'
    simp only [enumW, initW]
    generalize enumW ws s = L at *
    generalize initW ws s = s0 at *
    clear ih hg'
    induction htr with
    | @last t ht =>
      have h5 := h5 t (by simp)
      simp only [List.flatMap_cons, List.flatMap_nil]
      refine trace_digits (ws := ws) ?_ h5.1 ?_ ?_ w.first h5.2.1
      · intro h
        rw [h] at h5
        simp at h5
      · intro t' h
        rw [stepW_set h1 h2, ht] at h
        cases h
      · intro _
        rfl
    | @cons t t' l ht htr ih =>
      have h5' := h5 t (by simp)
      have ih := ih (fun u hu => h5 u (by simp [hu]))
      simp only [List.flatMap_cons]
      refine trace_digits (ws := ws) ?_ h5'.1 ?_ ?_ w.first h5'.2.1
      · intro h
        rw [h] at h5'
        simp at h5'
      · intro u h
        rw [stepW_set h1 h2, ht] at h
        cases h
        exact ih
      · intro h
        rw [stepW_set h1 h2, ht] at h
        cases h

theorem length_of_mem_enumW {s : List Nat} {ws : List Wheel} {t : List Nat} (h : t ∈ enumW ws s) :
    t.length = s.length := by
  induction ws generalizing t with
  | nil => simp [enumW] at h; rw [h]
  | cons w ws ih =>
    simp only [enumW, List.mem_flatMap, List.mem_map] at h
    obtain ⟨u, hu, x, _, rfl⟩ := h
    rw [List.length_set, ih hu]

theorem mem_enumW {s : List Nat} {ws : List Wheel} (hg : GoodWheels s ws) {t : List Nat} :
    t ∈ enumW ws s ↔ t.length = s.length ∧ (∀ i, (∀ w ∈ ws, w.px ≠ i) → t[i]? = s[i]?) ∧
      ∀ w ∈ ws, ∃ x ∈ w.digits t, t[w.px]? = some x := by
  induction ws generalizing t with
  | nil =>
    simp only [enumW, List.mem_singleton, List.not_mem_nil, false_implies, implies_true,
      true_implies, and_true]
    constructor
    · rintro rfl; simp
    · rintro ⟨_, h⟩
      exact List.ext_getElem? h
  | cons w ws ih =>
    obtain ⟨hg', hpx, h1, h2, h3, h4, h5⟩ := hg
    simp only [enumW, List.mem_flatMap, List.mem_map]
    constructor
    · rintro ⟨u, hu, x, hx, rfl⟩
      obtain ⟨hlen, hout, hin⟩ := (ih hg').1 hu
      refine ⟨by rw [List.length_set, hlen], ?_, ?_⟩
      · intro i hi
        rw [List.getElem?_set_ne (hi w (by simp))]
        exact hout i (fun w' hw' => hi w' (by simp [hw']))
      · intro w' hw'
        rcases List.mem_cons.1 hw' with rfl | hw'
        · refine ⟨x, by rw [h4]; exact hx, ?_⟩
          rw [List.getElem?_set_self (by rw [hlen]; exact hpx)]
        · obtain ⟨y, hy, hy'⟩ := hin w' hw'
          refine ⟨y, by rw [h3 w' hw']; exact hy, ?_⟩
          rw [List.getElem?_set_ne (h1 w' hw').symm, hy']
    · rintro ⟨hlen, hout, hin⟩
      obtain ⟨x, hx, hx'⟩ := hin w (by simp)
      have hs : s[w.px]? = some s[w.px] := List.getElem?_eq_getElem hpx
      refine ⟨t.set w.px s[w.px], (ih hg').2 ⟨by rw [List.length_set, hlen], ?_, ?_⟩, x, ?_, ?_⟩
      · intro i hi
        by_cases hiw : w.px = i
        · subst hiw
          rw [List.getElem?_set_self (by rw [hlen]; exact hpx), hs]
        · rw [List.getElem?_set_ne hiw]
          refine hout i ?_
          intro w' hw'
          rcases List.mem_cons.1 hw' with rfl | hw'
          · exact hiw
          · exact hi w' hw'
      · intro w' hw'
        obtain ⟨y, hy, hy'⟩ := hin w' (by simp [hw'])
        refine ⟨y, by rw [h3 w' hw']; exact hy, ?_⟩
        rw [List.getElem?_set_ne (h1 w' hw').symm, hy']
      · rw [h4]; exact hx
      · rw [List.set_set]
        apply List.ext_getElem?
        intro i
        by_cases hiw : w.px = i
        · subst hiw
          rw [List.getElem?_set_self (by rw [hlen]; exact hpx), hx']
        · rw [List.getElem?_set_ne hiw]

theorem nodup_enumW {s : List Nat} {ws : List Wheel} (hg : GoodWheels s ws) :
    (enumW ws s).Nodup := by
  induction ws with
  | nil => simp [enumW]
  | cons w ws ih =>
    obtain ⟨hg', hpx, h1, h2, h3, h4, h5⟩ := hg
    have hnd := ih hg'
    simp only [enumW]
    rw [List.nodup_flatMap]
    constructor
    · intro t ht
      refine (List.nodup_map_iff_inj_on (h5 t ht).2.2).2 ?_
      intro x _ y _ hxy
      have := congrArg (fun l : List Nat => l[w.px]?) hxy
      rw [List.getElem?_set_self, List.getElem?_set_self] at this
      · exact Option.some.inj this
      all_goals rw [length_of_mem_enumW ht]; exact hpx
    · refine List.Pairwise.imp_of_mem ?_ hnd
      intro t u ht hu hne
      simp only [Function.onFun, List.disjoint_left]
      intro a ha hb
      simp only [List.mem_map] at ha hb
      obtain ⟨x, _, rfl⟩ := ha
      obtain ⟨y, _, hy⟩ := hb
      apply hne
      apply List.ext_getElem?
      intro i
      by_cases hiw : w.px = i
      · subst hiw
        have a1 := ((mem_enumW hg').1 ht).2.1 w.px h1
        have a2 := ((mem_enumW hg').1 hu).2.1 w.px h1
        rw [a1, a2]
      · have := congrArg (fun l : List Nat => l[i]?) hy
        rw [List.getElem?_set_ne hiw, List.getElem?_set_ne hiw] at this
        exact this.symm

end Hycu
