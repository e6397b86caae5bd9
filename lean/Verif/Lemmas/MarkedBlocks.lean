import Verif.Lemmas.CurveEnum
import Verif.Model.Compute

/-!
The blocks of a configuration with a marked point are the first blocks of the configuration without.
-/

namespace Hycu
namespace CurveIterator

theorem rd_append {α : Type} {A : List α} {ix : Nat} {e : α} (h : rd A ix = .ok e) (B : List α) :
    ix < A.length ∧ rd (A ++ B) ix = .ok e := by
  rw [rd_eq_ok] at h ⊢
  have h1 : ix < A.length := (List.getElem?_eq_some_iff.1 h).1
  exact ⟨h1, by rw [List.getElem?_append_left h1]; exact h⟩

/-- With more enumerators at the end there are more blocks at the end. -/
theorem visits_prefix {p : Nat} (B : List BlockIterator) : ∀ (n m : Nat) (A : List BlockIterator) (ix : Nat) (L L' : List Block),
    visits asBlock n ⟨p, A, ix⟩ = .ok L → visits asBlock m ⟨p, A ++ B, ix⟩ = .ok L' → L <+: L'
  | 0, _, _, _, _, _, h, _ => by cases h
  | _ + 1, 0, _, _, _, _, _, h => by cases h
  | n + 1, m + 1, A, ix, L, L', h, h' => by
    unfold visits at h
    by_cases he : isEnd ⟨p, A, ix⟩ = true
    · rw [if_pos he] at h
      cases h
      exact List.nil_prefix
    · rw [if_neg he] at h
      obtain ⟨a, h1, h⟩ := Res.bind_eq_ok.1 h
      obtain ⟨it, h2, h⟩ := Res.bind_eq_ok.1 h
      obtain ⟨l, h3, h⟩ := Res.bind_eq_ok.1 h
      cases h
      obtain ⟨e, h4, h5⟩ := Res.bind_eq_ok.1 h1
      obtain ⟨h6, h7⟩ := rd_append h4 B
      have he' : ¬ isEnd ⟨p, A ++ B, ix⟩ = true := by
        intro hx
        have hx : ix = (A ++ B).length := of_decide_eq_true hx
        rw [List.length_append] at hx
        dsimp only at h6
        omega
      unfold step at h2
      rw [if_neg he] at h2
      obtain ⟨e₁, h8, h2⟩ := Res.bind_eq_ok.1 h2
      obtain rfl : e = e₁ := Res.ok.inj (h4.symm.trans h8)
      obtain ⟨e₂, h9, h2⟩ := Res.bind_eq_ok.1 h2
      unfold visits at h'
      rw [if_neg he'] at h'
      obtain ⟨a', h1', h'⟩ := Res.bind_eq_ok.1 h'
      obtain ⟨it', h2', h'⟩ := Res.bind_eq_ok.1 h'
      obtain ⟨l', h3', h'⟩ := Res.bind_eq_ok.1 h'
      cases h'
      obtain ⟨x, h4', h5'⟩ := Res.bind_eq_ok.1 h1'
      obtain rfl : e = x := Res.ok.inj (h7.symm.trans h4')
      obtain rfl : a = a' := Res.ok.inj (h5.symm.trans h5')
      unfold step at h2'
      rw [if_neg he'] at h2'
      obtain ⟨e₁, h8', h2'⟩ := Res.bind_eq_ok.1 h2'
      obtain rfl : e = e₁ := Res.ok.inj (h7.symm.trans h8')
      obtain ⟨e₃, h9', h2'⟩ := Res.bind_eq_ok.1 h2'
      obtain rfl : e₂ = e₃ := Res.ok.inj (h9.symm.trans h9')
      dsimp only at h2 h2'
      rw [List.set_append_left _ _ h6] at h2'
      refine (List.prefix_cons_inj a).2 ?_
      split at h2
      · rename_i hend
        rw [if_pos hend] at h2'
        cases h2
        cases h2'
        exact visits_prefix B n m _ _ _ _ h3 h3'
      · rename_i hend
        rw [if_neg hend] at h2'
        cases h2
        cases h2'
        exact visits_prefix B n m _ _ _ _ h3 h3'

theorem mapM_append_ok {α β : Type} (f : α → Res β) : ∀ (l₁ l₂ : List α) (r : List β), (l₁ ++ l₂).mapM f = .ok r →
    ∃ r₁ r₂, l₁.mapM f = .ok r₁ ∧ r = r₁ ++ r₂
  | [], l₂, r, _ => ⟨[], r, rfl, rfl⟩
  | x :: l₁, l₂, r, h => by
    rw [List.cons_append, List.mapM_cons] at h
    obtain ⟨y, h1, h⟩ := Res.bind_eq_ok.1 h
    obtain ⟨ys, h2, h⟩ := Res.bind_eq_ok.1 h
    cases h
    obtain ⟨r₁, r₂, h3, rfl⟩ := mapM_append_ok f l₁ l₂ ys h2
    refine ⟨y :: r₁, r₂, ?_, rfl⟩
    rw [List.mapM_cons, h1, Res.bind_ok, h3]
    rfl

theorem degrees_append {genus : Nat} (hg : genus < 1073741823) :
    degrees genus false = degrees genus true ++ [2 * genus + 2] := by
  unfold degrees
  rw [if_neg (by decide), if_pos rfl, u32_of_lt (by omega), u32_of_lt (by omega), u32_of_lt (by omega),
    show 2 * genus + 3 - (2 * genus + 1) = 1 + 1 by omega, show 2 * genus + 2 - (2 * genus + 1) = 1 by omega,
    List.range'_concat]

end CurveIterator

open CurveIterator in
/-- The blocks with a marked point are the first blocks of those without. -/
theorem Flint.blocks_marked {w : Flint} {c : ConfigNode} (hg : c.genus < 1073741823) {L L' : List Block}
    (h : Terminates (w.blocks { c with withMarkedPoint := true }) L)
    (h' : Terminates (w.blocks { c with withMarkedPoint := false }) L') : L <+: L' := by
  obtain ⟨N, h⟩ := h
  obtain ⟨N', h'⟩ := h'
  have h := h N le_rfl
  have h' := h' N' le_rfl
  obtain ⟨table, h1, h⟩ := Res.bind_eq_ok.1 h
  obtain ⟨it, h2, h⟩ := Res.bind_eq_ok.1 h
  obtain ⟨table', h1', h'⟩ := Res.bind_eq_ok.1 h'
  obtain ⟨it', h2', h'⟩ := Res.bind_eq_ok.1 h'
  obtain rfl : table = table' := Res.ok.inj (h1.symm.trans h1')
  unfold make at h2 h2'
  split at h2
  · cases h2
  rename_i c1
  rw [if_neg c1] at h2'
  split at h2
  · cases h2
  rename_i c2
  rw [if_neg c2] at h2'
  split at h2
  · cases h2
  rename_i c3
  rw [if_neg c3] at h2'
  obtain ⟨es, h3, h2⟩ := Res.bind_eq_ok.1 h2
  obtain ⟨es', h3', h2'⟩ := Res.bind_eq_ok.1 h2'
  cases h2
  cases h2'
  dsimp only at h3 h3'
  rw [degrees_append hg, List.flatMap_append] at h3'
  obtain ⟨r₁, r₂, h4, rfl⟩ := mapM_append_ok _ _ _ _ h3'
  obtain rfl : es = r₁ := Res.ok.inj (h3.symm.trans h4)
  exact visits_prefix r₂ _ _ _ _ _ _ h h'

end Hycu
