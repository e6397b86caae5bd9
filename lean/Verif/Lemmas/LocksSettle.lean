import Verif.Lemmas.LocksDrain

/-!
Small steps can follow large steps: agents that hold mutexes between two sections make their notifications at once.
-/

namespace Hycu
namespace Locks

variable {A L X C : Type} {V : X → Type} [DecidableEq A] [DecidableEq L] [DecidableEq X] {S : System A L X C V}
  {rank : L → Nat} {top : Nat}

/-- Notifications, wake-ups and joins one after the other. -/
inductive Syncs (S : System A L X C V) (m : (x : X) → V x) : ((x : X) → V x) → Prop
  | refl : Syncs S m m
  | step (a : A) {n s : (x : X) → V x} (h : Syncs S m n) (hs : S.sync a n s) : Syncs S m s

/-- `settle` makes all pending notifications. -/
structure Settles (S : System A L X C V) (settle : ((x : X) → V x) → (x : X) → V x) : Prop where
  shared : ∀ m x l, S.guard x = .inl l → settle m x = m x
  free : ∀ a m, S.held a (settle m) = []
  same : ∀ a m, ¬ S.rest a m → S.Same a m (settle m)
  /-- whatever happens before a late notification can happen after it, up to further wake-ups -/
  act : ∀ a ch m s t, ¬ S.rest a m → S.act a ch m = .ok (some s) → (∀ x b, S.guard x = .inr b → b ≠ a → s x = m x) →
    S.Same a t s → (∀ x l, S.guard x = .inl l → t x = s x) → (∀ x b, S.guard x = .inr b → b ≠ a → t x = settle m x) →
    Syncs S t (settle s)
  sync : ∀ a m s, S.sync a m s → Syncs S (settle m) (settle s)

/-- Several large steps. -/
inductive Bigs (S : System A L X C V) (m : (x : X) → V x) : ((x : X) → V x) → Prop
  | refl : Bigs S m m
  | step {n s : (x : X) → V x} (h : Bigs S m n) (hs : Big S n s) : Bigs S m s

theorem Syncs.run {c : Config A L X V} (ho : ∀ a, c.prog a = .out) {m : (x : X) → V x} (h : Syncs S c.mem m) :
    ∃ c', Reachable S c c' ∧ (∀ a, c'.prog a = .out) ∧ c'.mem = m := by
  induction h with
  | refl => exact ⟨c, .refl, ho, rfl⟩
  | step a _ hs ih =>
    obtain ⟨c', h1, h2, rfl⟩ := ih
    obtain ⟨c'', h3, h4, h5⟩ := syncing (h2 a) hs
    exact ⟨c'', h1.trans h3, fun b => by rw [h5]; exact h2 b, h4⟩

theorem Settles.run {settle : ((x : X) → V x) → (x : X) → V x} (hl : Laws S rank top) (hs : Settles S settle)
    {c : Config A L X V} (hi : Inv S c) (ho : ∀ a, c.prog a = .out) {m n : (x : X) → V x} (hc : c.mem = settle m)
    (h : Bigs S m n) : ∃ c', Reachable S c c' ∧ (∀ a, c'.prog a = .out) ∧ c'.mem = settle n := by
  induction h with
  | refl => exact ⟨c, .refl, ho, hc⟩
  | @step n s _ hb ih =>
    obtain ⟨d, h1, h2, h3⟩ := ih
    have hid := hi.reachable hl h1
    suffices h : ∃ c', Reachable S d c' ∧ (∀ a, c'.prog a = .out) ∧ c'.mem = settle s by
      obtain ⟨c', h4, h5⟩ := h
      exact ⟨c', h1.trans h4, h5⟩
    cases hb with
    | sync a hb =>
      have := hs.sync a _ _ hb
      rw [← h3] at this
      exact this.run h2
    | act a ch hr ha =>
      have htouch : ∀ x, x ∈ S.touched a n → ∃ l, S.guard x = .inl l := by
        intro x hx
        rcases List.mem_append.1 hx with hx | hx
        · obtain ⟨k, _, hk⟩ := reads_take (k := (S.plan a n).length) (by rwa [List.take_length])
          obtain ⟨l, hg, _⟩ := hl.read_guard _ _ _ _ hk
          exact ⟨l, hg⟩
        · obtain ⟨l, hg, _⟩ := hl.extra_guard _ _ _ hx
          exact ⟨l, hg⟩
      have hsame := hs.same a n hr
      obtain ⟨t, ht, t1, t2, t3⟩ := hl.act_frame a ch n (settle n) s hr hsame (fun x hx => by
        obtain ⟨l, hg⟩ := htouch x (List.mem_append_left _ hx)
        exact (hs.shared n x l hg).symm) ha
      obtain ⟨u, hu, -, -, u3⟩ := hl.act_frame a ch n n s hr (fun _ _ => rfl) (fun _ _ => rfl) ha
      rw [ha] at hu
      cases hu
      have hfree : ∀ l, d.owner l = none := by
        intro l
        cases hd : d.owner l with
        | none => rfl
        | some b =>
          have := hid.held_of_owner (h2 b) hd
          rw [h3, hs.free] at this
          cases this
      have hrest : ¬ S.rest a (settle n) := fun h => hr (hl.rest_dep _ _ _ (fun x hx => (hsame x hx).symm) h)
      rw [← h3] at hrest ht
      obtain ⟨e, r1, r2, r3⟩ := whole hl (h2 a) hrest (fun l _ => hfree l) ht
      have hns : ∀ x b, S.guard x = .inr b → x ∉ S.touched a n := by
        intro x b hx h
        obtain ⟨l, hg⟩ := htouch x h
        rw [hx] at hg
        cases hg
      have hrun := hs.act a ch n s t hr ha
        (fun x b hx hb => u3 x (by rw [hx]; simpa using hb) (hns x b hx)) t1
        (fun x l hx => by
          by_cases hm : x ∈ S.touched a n
          · exact t2 x hm
          · rw [t3 x (by rw [hx]; simp) hm, u3 x (by rw [hx]; simp) hm]
            exact hs.shared n x l hx)
        fun x b hx hb => t3 x (by rw [hx]; simpa using hb) (hns x b hx)
      rw [← r2] at hrun
      obtain ⟨f, s1, s2, s3⟩ := hrun.run (fun b => by rw [r3]; exact h2 b)
      exact ⟨f, r1.trans s1, s2, s3⟩

end Locks
end Hycu
