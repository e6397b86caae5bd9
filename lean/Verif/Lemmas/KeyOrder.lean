import Verif.Spec.Key

/-!
Order and twists of keys.
-/

namespace Hycu

/-! ### Twists -/

/-- The sign of the entry `j` of the loop started with `odd = s`. -/
theorem twistLoop_iff : ∀ (l l' : List Int) (s : Bool) (n : Nat), (s = true ↔ n % 2 = 0) →
    (Key.twistLoop s l = .ok l' ↔ (l' = l.mapIdx fun j z => if (j + n) % 2 = 0 then -z else z) ∧
      ∀ (j : Nat) (z : Int), l[j]? = some z → (j + n) % 2 = 0 → z ≠ -2147483648)
  | [], l', _, _, _ => by
    simp only [Key.twistLoop, List.mapIdx_nil, List.getElem?_nil]
    constructor
    · intro h; exact ⟨(Res.ok.inj h).symm, by simp⟩
    · rintro ⟨rfl, _⟩; rfl
  | z :: l, l', s, n, hs => by
    have ih := fun l' => twistLoop_iff l l' (!s) (n + 1) (by
      cases s
      · simp at hs; simp; omega
      · simp at hs; simp; omega)
    have hone : ∀ w, Key.twistOne s z = .ok w ↔ (w = if (0 + n) % 2 = 0 then -z else z) ∧
        ((0 + n) % 2 = 0 → z ≠ -2147483648) := by
      intro w
      unfold Key.twistOne Key.negInt
      cases s
      · simp at hs
        rw [if_neg (by simp), if_neg (by omega)]
        constructor
        · intro h; exact ⟨(Res.ok.inj h).symm, fun h => by omega⟩
        · rintro ⟨rfl, _⟩; rfl
      · simp at hs
        rw [if_pos rfl, if_pos (show (0 + n) % 2 = 0 by omega)]
        split
        · rename_i h
          constructor
          · intro h1; exact absurd h1 (by simp)
          · rintro ⟨_, h1⟩; exact absurd h (h1 (by omega))
        · rename_i h
          constructor
          · intro h1; exact ⟨(Res.ok.inj h1).symm, fun _ => h⟩
          · rintro ⟨rfl, _⟩; rfl
    have hidx : (l.mapIdx fun j z => if (j + (n + 1)) % 2 = 0 then -z else z) =
        l.mapIdx fun j z => if (j + 1 + n) % 2 = 0 then -z else z := by
      congr 1
      funext j z
      rw [show j + 1 + n = j + (n + 1) by omega]
    unfold Key.twistLoop
    rw [List.mapIdx_cons, ← hidx, Res.bind_eq_ok]
    constructor
    · rintro ⟨w, h1, h2⟩
      obtain ⟨ws, h3, h4⟩ := Res.bind_eq_ok.1 h2
      obtain ⟨e1, e2⟩ := (hone w).1 h1
      obtain ⟨e3, e4⟩ := (ih ws).1 h3
      refine ⟨by rw [← e1, ← e3]; exact (Res.ok.inj h4).symm, ?_⟩
      intro j x hj hjn
      cases j with
      | zero =>
        rw [List.getElem?_cons_zero] at hj
        obtain rfl := Option.some.inj hj
        exact e2 hjn
      | succ j =>
        rw [List.getElem?_cons_succ] at hj
        exact e4 j x hj (by omega)
    · rintro ⟨rfl, h⟩
      refine ⟨_, (hone _).2 ⟨rfl, h 0 z rfl⟩, ?_⟩
      rw [(ih _).2 ⟨rfl, fun j x hj hjn => h (j + 1) x hj (by omega)⟩]
      rfl

theorem twist_iff {k k' : Key} : k.twist = .ok k' ↔ k' = ⟨k.ramification, twistedOffsets k.offsets⟩ ∧
    ∀ (j : Nat) (z : Int), k.offsets[j]? = some z → j % 2 = 0 → z ≠ -2147483648 := by
  unfold Key.twist
  rw [Res.bind_eq_ok]
  have := fun l' => twistLoop_iff k.offsets l' true 0 (by simp)
  simp only [Nat.add_zero] at this
  constructor
  · rintro ⟨ws, h1, h2⟩
    obtain ⟨e1, e2⟩ := (this ws).1 h1
    exact ⟨by rw [← Res.ok.inj h2, e1]; rfl, e2⟩
  · rintro ⟨rfl, h⟩
    exact ⟨_, (this _).2 ⟨rfl, h⟩, rfl⟩

theorem twist_ok {k : Key} (h : ∀ z ∈ k.offsets, z ≠ -2147483648) :
    k.twist = .ok ⟨k.ramification, twistedOffsets k.offsets⟩ :=
  twist_iff.2 ⟨rfl, fun _ z hj _ => h z (List.mem_of_getElem? hj)⟩

theorem twistedOffsets_twice (l : List Int) : twistedOffsets (twistedOffsets l) = l := by
  apply List.ext_getElem
  · simp [twistedOffsets]
  · intro i h1 h2
    simp only [twistedOffsets, List.getElem_mapIdx]
    split <;> simp

theorem twist_ne (k : Key) : k.twist ≠ .abort ∧ k.twist ≠ .diverge := by
  have h : ∀ (l : List Int) (s : Bool), Key.twistLoop s l = .ub ∨ ∃ l', Key.twistLoop s l = .ok l' := by
    intro l
    induction l with
    | nil => intro s; exact Or.inr ⟨_, rfl⟩
    | cons z l ih =>
      intro s
      unfold Key.twistLoop Key.twistOne Key.negInt
      rcases ih (!s) with h | ⟨l', h⟩
      · left
        rw [h]
        cases s
        · rfl
        · by_cases hz : z = -2147483648
          · rw [if_pos rfl, if_pos hz]; rfl
          · rw [if_pos rfl, if_neg hz]; rfl
      · rw [h]
        cases s
        · exact Or.inr ⟨_, rfl⟩
        · by_cases hz : z = -2147483648
          · left; rw [if_pos rfl, if_pos hz]; rfl
          · right; rw [if_pos rfl, if_neg hz]; exact ⟨_, rfl⟩
  unfold Key.twist
  rcases h k.offsets true with h | ⟨l', h⟩ <;> rw [h] <;> simp [Res.bind_ub, Res.bind_ok]

/-! ### Order -/

theorem key_irrefl (a : Key) : Key.less a a = false := by
  simp only [Key.less, LawfulLess.irrefl]
  simp

theorem key_trans (a b c : Key) : Key.less a b = true → Key.less b c = true → Key.less a c = true := by
  simp only [Key.less]
  intro h1 h2
  split at h1
  · rename_i h3
    split at h2
    · rename_i h4
      rw [if_pos (LawfulLess.trans _ _ _ h3 h4)]
    · split at h2
      · rename_i h4
        rw [← h4, if_pos h3]
      · exact absurd h2 (by simp)
  · split at h1
    · rename_i h3
      rw [h3]
      split at h2
      · rename_i h4
        rw [if_pos h4]
      · rename_i h5
        split at h2
        · rename_i h4
          rw [if_neg h5, if_pos h4]
          split at h1
          · rename_i h6
            split at h2
            · rename_i h7
              rw [if_pos (LawfulLess.trans _ _ _ h6 h7)]
            · exact absurd h2 (by simp)
          · exact absurd h1 (by simp)
        · exact absurd h2 (by simp)
    · exact absurd h1 (by simp)

theorem key_total (a b : Key) : Key.less a b = false → Key.less b a = false → a = b := by
  simp only [Key.less]
  intro h1 h2
  split at h1
  · exact absurd h1 (by simp)
  · rename_i h3
    split at h2
    · exact absurd h2 (by simp)
    · rename_i h4
      have h5 : a.ramification = b.ramification :=
        LawfulLess.total _ _ (by simpa using h3) (by simpa using h4)
      rw [if_pos h5] at h1
      rw [if_pos h5.symm] at h2
      split at h1
      · exact absurd h1 (by simp)
      · rename_i h6
        split at h2
        · exact absurd h2 (by simp)
        · rename_i h7
          have h8 : a.offsets = b.offsets := LawfulLess.total _ _ (by simpa using h6) (by simpa using h7)
          cases a
          cases b
          simp only at h5 h8
          rw [h5, h8]

instance : LawfulLess Key where
  irrefl := key_irrefl
  trans := key_trans
  total := key_total

end Hycu
