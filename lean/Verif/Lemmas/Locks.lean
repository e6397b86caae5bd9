import Verif.Model.Locks

/-!
Critical sections whose variables are protected by mutexes are atomic.
-/

namespace Hycu
namespace Locks

set_option linter.unusedSectionVars false

variable {A L X C : Type} {V : X → Type} [DecidableEq A] [DecidableEq L] [DecidableEq X]

/-- The values of the private variables of an agent are the same. -/
def System.Same (S : System A L X C V) (a : A) (m n : (x : X) → V x) : Prop := ∀ x, S.guard x = .inr a → m x = n x

/-- What is demanded of a program. -/
structure Laws (S : System A L X C V) (rank : L → Nat) (top : Nat) : Prop where
  /-- an instruction depends on private variables, and on what has been read before -/
  plan_dep : ∀ a k m n, S.Same a m n → (∀ x ∈ reads ((S.plan a m).take k), m x = n x) →
    (S.plan a m).take (k + 1) = (S.plan a n).take (k + 1)
  reads_nodup : ∀ a m, (reads (S.plan a m)).Nodup
  /-- variables are read while their mutexes are held -/
  read_guard : ∀ a m k x, (S.plan a m)[k]? = some (.read x) →
    ∃ l, S.guard x = .inl l ∧ l ∈ S.held a m ++ locks ((S.plan a m).take k)
  extra_guard : ∀ a m x, x ∈ S.extra a m → ∃ l, S.guard x = .inl l ∧ l ∈ S.held a m ++ locks (S.plan a m)
  /-- mutexes are acquired in a fixed order -/
  rank_lt : ∀ a m k l, (S.plan a m)[k]? = some (.acquire l) →
    ∀ l' ∈ S.held a m ++ locks ((S.plan a m).take k), rank l' < rank l
  rank_le : ∀ l, rank l ≤ top
  held_dep : ∀ a m n, S.Same a m n → S.held a m = S.held a n
  held_nodup : ∀ a m, (S.held a m).Nodup
  rest_dep : ∀ a m n, S.Same a m n → S.rest a m → S.rest a n
  /-- a section depends only on what is read, and changes only what it has access to -/
  act_frame : ∀ a ch m n s, ¬ S.rest a m → S.Same a m n → (∀ x ∈ reads (S.plan a m), m x = n x) →
    S.act a ch m = .ok (some s) →
    ∃ t, S.act a ch n = .ok (some t) ∧ S.Same a t s ∧ (∀ x ∈ S.touched a m, t x = s x) ∧
      ∀ x, S.guard x ≠ .inr a → x ∉ S.touched a m → t x = n x
  act_fails : ∀ a ch m n, ¬ S.rest a m → S.Same a m n → (∀ x ∈ reads (S.plan a m), m x = n x) →
    (∀ o, S.act a ch m ≠ .ok o) → ∀ o, S.act a ch n ≠ .ok o
  act_held : ∀ a ch m s, S.act a ch m = .ok (some s) → ∀ l ∈ S.held a s, l ∈ S.held a m ++ locks (S.plan a m)
  /-- notifications and joins depend on private variables only, and change only private variables -/
  sync_frame : ∀ a m n s t, S.sync a m s → (∀ x b, S.guard x = .inr b → m x = n x) →
    (∀ x b, S.guard x = .inr b → t x = s x) → (∀ x l, S.guard x = .inl l → t x = n x) → S.sync a n t
  sync_shared : ∀ a m s, S.sync a m s → ∀ x l, S.guard x = .inl l → s x = m x
  /-- they change variables of other agents only while these wait -/
  sync_other : ∀ a m s, S.sync a m s → ∀ b, b ≠ a → S.Same b s m ∨ (S.rest b m ∧ S.held b s = S.held b m)
  sync_held : ∀ a m s, S.sync a m s → ∀ l ∈ S.held a s, l ∈ S.held a m
  /-- an agent that does not rest can do something -/
  awake : ∀ a m, ¬ S.rest a m → ∃ ch, S.act a ch m ≠ .ok none
  /-- an agent that holds a mutex can do something -/
  busy : ∀ a m, S.held a m ≠ [] → S.rest a m → ∃ s, S.sync a m s

/-! ### Lists of instructions -/

theorem reads_append (is js : List (Instr L X)) : reads (is ++ js) = reads is ++ reads js := List.filterMap_append

theorem locks_append (is js : List (Instr L X)) : locks (is ++ js) = locks is ++ locks js := List.filterMap_append

theorem take_get {is : List (Instr L X)} {k : Nat} {i : Instr L X} (h : is[k]? = some i) :
    is.take (k + 1) = is.take k ++ [i] := by
  rw [List.take_add_one, h]
  rfl

theorem reads_take {is : List (Instr L X)} {k : Nat} {x : X} (h : x ∈ reads (is.take k)) :
    ∃ j, j < k ∧ is[j]? = some (.read x) := by
  obtain ⟨i, hi, he⟩ := List.mem_filterMap.1 h
  cases i with
  | acquire l => cases he
  | read y =>
    cases he
    obtain ⟨j, hj, hx⟩ := List.mem_iff_getElem.1 hi
    rw [List.length_take] at hj
    refine ⟨j, by omega, ?_⟩
    rw [List.getElem_take] at hx
    rw [List.getElem?_eq_getElem (by omega), hx]

theorem reads_mem_of_take {is : List (Instr L X)} {k : Nat} {x : X} (h : x ∈ reads (is.take k)) : x ∈ reads is := by
  rw [← List.take_append_drop k is, reads_append]
  exact List.mem_append_left _ h

theorem locks_take_mono {is : List (Instr L X)} {j k : Nat} {l : L} (hjk : j ≤ k) (h : l ∈ locks (is.take j)) :
    l ∈ locks (is.take k) := by
  rw [show is.take j = (is.take k).take j by rw [List.take_take, Nat.min_eq_left hjk]] at h
  rw [← List.take_append_drop j (is.take k), locks_append]
  exact List.mem_append_left _ h

/-! ### What is held -/

/-- The mutexes that an agent holds besides those between two sections. -/
def Prog.more (S : System A L X C V) (a : A) : Prog L X V → List L
  | .out => []
  | .entering k reg => locks ((S.plan a reg).take k)
  | .leaving _ _ ls => ls

/-- The mutexes that an agent holds. -/
def holds (S : System A L X C V) (c : Config A L X V) (a : A) : List L := S.held a c.mem ++ (c.prog a).more S a

/-- What is true all the time. -/
structure Inv (S : System A L X C V) (c : Config A L X V) : Prop where
  own : ∀ a l, l ∈ holds S c a ↔ c.owner l = some a
  nodup : ∀ a, (holds S c a).Nodup
  same : ∀ a k reg, c.prog a = .entering k reg → S.Same a reg c.mem
  awake : ∀ a k reg, c.prog a = .entering k reg → ¬ S.rest a c.mem
  le : ∀ a k reg, c.prog a = .entering k reg → k ≤ (S.plan a reg).length
  pending : ∀ a ws reg ls, c.prog a = .leaving ws reg ls → ∀ x ∈ ws, ∃ l, S.guard x = .inl l ∧ l ∈ holds S c a

open Classical in
/-- The value of a variable that an agent has access to, at the moment at which its section takes effect. -/
noncomputable def Prog.value (S : System A L X C V) (a : A) (m : (x : X) → V x) (x : X) : Prog L X V → V x
  | .out => m x
  | .entering k reg => if x ∈ reads ((S.plan a reg).take k) then reg x else m x
  | .leaving ws reg _ => if x ∈ ws then reg x else m x

/-- The values of variables with unfinished sections undone or completed. -/
noncomputable def abs (S : System A L X C V) (c : Config A L X V) (x : X) : V x :=
  match S.guard x with
  | .inr _ => c.mem x
  | .inl l => match c.owner l with
    | none => c.mem x
    | some a => (c.prog a).value S a c.mem x

variable {S : System A L X C V} {rank : L → Nat} {top : Nat}

theorem abs_private {c : Config A L X V} {x : X} {a : A} (h : S.guard x = .inr a) : abs S c x = c.mem x := by
  simp only [abs, h]

theorem abs_free {c : Config A L X V} {x : X} {l : L} (h : S.guard x = .inl l) (ho : c.owner l = none) :
    abs S c x = c.mem x := by
  simp only [abs, h, ho]

theorem abs_owned {c : Config A L X V} {x : X} {l : L} {a : A} (h : S.guard x = .inl l) (ho : c.owner l = some a) :
    abs S c x = (c.prog a).value S a c.mem x := by
  simp only [abs, h, ho]

/-- The variables that have been read are protected. -/
theorem Inv.read_owned (hl : Laws S rank top) {c : Config A L X V} (hi : Inv S c) {a : A} {k : Nat}
    {reg : (x : X) → V x} (h : c.prog a = .entering k reg) {x : X} (hx : x ∈ reads ((S.plan a reg).take k)) :
    ∃ l, S.guard x = .inl l ∧ c.owner l = some a := by
  obtain ⟨j, hj, hr⟩ := reads_take hx
  obtain ⟨l, hg, hm⟩ := hl.read_guard _ _ _ _ hr
  refine ⟨l, hg, (hi.own a l).1 ?_⟩
  unfold holds
  rw [h, ← hl.held_dep _ _ _ (hi.same _ _ _ h)]
  rcases List.mem_append.1 hm with h1 | h1
  · exact List.mem_append_left _ h1
  · exact List.mem_append_right _ (locks_take_mono (by omega) h1)

/-- The variable that is read next is protected. -/
theorem Inv.next_owned (hl : Laws S rank top) {c : Config A L X V} (hi : Inv S c) {a : A} {k : Nat}
    {reg : (x : X) → V x} (h : c.prog a = .entering k reg) {x : X} (hx : (S.plan a reg)[k]? = some (.read x)) :
    ∃ l, S.guard x = .inl l ∧ c.owner l = some a := by
  obtain ⟨l, hg, hm⟩ := hl.read_guard _ _ _ _ hx
  refine ⟨l, hg, (hi.own a l).1 ?_⟩
  unfold holds
  rw [h, ← hl.held_dep _ _ _ (hi.same _ _ _ h)]
  exact hm

/-- The variables that are still to be written are protected. -/
theorem Inv.write_owned {c : Config A L X V} (hi : Inv S c) {a : A} {ws : List X} {ls : List L}
    {reg : (x : X) → V x} (h : c.prog a = .leaving ws reg ls) {x : X} (hx : x ∈ ws) :
    ∃ l, S.guard x = .inl l ∧ c.owner l = some a := by
  obtain ⟨l, hg, hm⟩ := hi.pending _ _ _ _ h x hx
  exact ⟨l, hg, (hi.own a l).1 hm⟩

/-- There are no races. -/
theorem Inv.exclusive (hl : Laws S rank top) {c : Config A L X V} (hi : Inv S c) {a b : A} {x : X}
    (ha : Accesses S c a x) (hb : Accesses S c b x) : a = b := by
  have key : ∀ d, Accesses S c d x → ∃ l, S.guard x = .inl l ∧ c.owner l = some d := by
    intro d hd
    unfold Accesses at hd
    split at hd
    · exact hd.elim
    · next k reg hp =>
      rcases hd with hd | hd
      · exact hi.next_owned hl hp hd
      · exact hi.read_owned hl hp hd
    · next ws reg ls hp => exact hi.write_owned hp hd
  obtain ⟨l, h1, h2⟩ := key a ha
  obtain ⟨l', h3, h4⟩ := key b hb
  rw [h1] at h3
  cases h3
  rw [h2] at h4
  cases h4
  rfl

/-! ### Steps of the machine with sections as single steps -/

/-- A section as a whole, or a notification or join. -/
inductive Big (S : System A L X C V) (m n : (x : X) → V x) : Prop
  | act (a : A) (ch : C) (hr : ¬ S.rest a m) (h : S.act a ch m = .ok (some n))
  | sync (a : A) (h : S.sync a m n)

theorem go_prog (c : Config A L X V) (a : A) (p : Prog L X V) : (c.go a p).prog a = p := Function.update_self ..

theorem go_prog_ne (c : Config A L X V) {a b : A} (p : Prog L X V) (h : b ≠ a) : (c.go a p).prog b = c.prog b :=
  Function.update_of_ne h ..

/-- An agent moves on, and nothing else changes. -/
theorem Inv.go {c : Config A L X V} (hi : Inv S c) (a : A) (p : Prog L X V)
    (hm : p.more S a = (c.prog a).more S a)
    (he : ∀ k reg, p = .entering k reg → S.Same a reg c.mem ∧ ¬ S.rest a c.mem ∧ k ≤ (S.plan a reg).length)
    (hw : ∀ ws reg ls, p = .leaving ws reg ls → ∀ x ∈ ws, ∃ l, S.guard x = .inl l ∧ l ∈ holds S c a) :
    Inv S (c.go a p) := by
  have hh : ∀ b, holds S (c.go a p) b = holds S c b := by
    intro b
    unfold holds
    by_cases hb : b = a
    · subst hb
      rw [go_prog, hm]
      rfl
    · rw [go_prog_ne c p hb]
      rfl
  refine ⟨fun b l => ?_, fun b => ?_, fun b k reg hp => ?_, fun b k reg hp => ?_, fun b k reg hp => ?_,
    fun b ws reg ls hp x hx => ?_⟩
  · rw [hh]
    exact hi.own b l
  · rw [hh]
    exact hi.nodup b
  · by_cases hb : b = a
    · subst hb
      rw [go_prog] at hp
      exact (he _ _ hp).1
    · rw [go_prog_ne c p hb] at hp
      exact hi.same _ _ _ hp
  · by_cases hb : b = a
    · subst hb
      rw [go_prog] at hp
      exact (he _ _ hp).2.1
    · rw [go_prog_ne c p hb] at hp
      exact hi.awake _ _ _ hp
  · by_cases hb : b = a
    · subst hb
      rw [go_prog] at hp
      exact (he _ _ hp).2.2
    · rw [go_prog_ne c p hb] at hp
      exact hi.le _ _ _ hp
  · rw [hh]
    by_cases hb : b = a
    · subst hb
      rw [go_prog] at hp
      exact hw _ _ _ hp x hx
    · rw [go_prog_ne c p hb] at hp
      exact hi.pending _ _ _ _ hp x hx

/-- Nothing changes for others. -/
theorem abs_go {c : Config A L X V} (a : A) (p : Prog L X V)
    (h : ∀ x l, S.guard x = .inl l → c.owner l = some a → p.value S a c.mem x = (c.prog a).value S a c.mem x) :
    abs S (c.go a p) = abs S c := by
  funext x
  cases hg : S.guard x with
  | inr b => rw [abs_private hg, abs_private hg]; rfl
  | inl l =>
    cases hb : c.owner l with
    | none => rw [abs_free hg hb, abs_free (c := c.go a p) hg hb]; rfl
    | some b =>
      rw [abs_owned hg hb, abs_owned (c := c.go a p) hg hb]
      by_cases hba : b = a
      · subst hba
        rw [go_prog]
        exact h x l hg hb
      · rw [go_prog_ne c p hba]
        rfl

/-- A shared variable gets a new value. -/
theorem Inv.store (hl : Laws S rank top) {c : Config A L X V} (hi : Inv S c) {x : X} {l : L} (hx : S.guard x = .inl l)
    (v : V x) : Inv S (c.store x v) := by
  have hs : ∀ a, S.Same a (c.store x v).mem c.mem := by
    intro a y hy
    have hne : y ≠ x := by
      rintro rfl
      rw [hx] at hy
      cases hy
    exact Function.update_of_ne hne ..
  have hh : ∀ b, holds S (c.store x v) b = holds S c b := by
    intro b
    unfold holds
    rw [hl.held_dep _ _ _ (hs b)]
    rfl
  refine ⟨fun b l => ?_, fun b => ?_, fun b k reg hp y hy => ?_, fun b k reg hp => ?_, fun b k reg hp => hi.le _ _ _ hp,
    fun b ws reg ls hp y hy => ?_⟩
  · rw [hh]
    exact hi.own b l
  · rw [hh]
    exact hi.nodup b
  · rw [hs b y hy]
    exact hi.same _ _ _ hp y hy
  · exact fun hr => hi.awake _ _ _ hp (hl.rest_dep _ _ _ (hs b) hr)
  · rw [hh]
    exact hi.pending _ _ _ _ hp y hy

theorem abs_store {c : Config A L X V} {x : X} {l : L} {a : A} (hx : S.guard x = .inl l) (ho : c.owner l = some a)
    (v : V x) (h : (c.prog a).value S a (Function.update c.mem x v) x = (c.prog a).value S a c.mem x) :
    abs S (c.store x v) = abs S c := by
  have hval : ∀ b y, y ≠ x → (c.prog b).value S b (Function.update c.mem x v) y = (c.prog b).value S b c.mem y := by
    intro b y hy
    unfold Prog.value
    rw [Function.update_of_ne hy]
  funext y
  by_cases hy : y = x
  · subst hy
    rw [abs_owned (c := c.store y v) hx ho, abs_owned hx ho]
    exact h
  · cases hg : S.guard y with
    | inr b =>
      rw [abs_private hg, abs_private hg]
      exact Function.update_of_ne hy ..
    | inl l' =>
      cases hb : c.owner l' with
      | none =>
        rw [abs_free hg hb, abs_free (c := c.store x v) hg hb]
        exact Function.update_of_ne hy ..
      | some b =>
        rw [abs_owned hg hb, abs_owned (c := c.store x v) hg hb]
        exact hval _ _ hy

/-- Intermediate values are not visible. -/
theorem Inv.scribble (hl : Laws S rank top) {c c' : Config A L X V} (hi : Inv S c) (h : Scribble S c c') :
    Inv S c' ∧ abs S c' = abs S c := by
  cases h with
  | before a k reg x v h hx =>
    obtain ⟨l, hg, ho⟩ := hi.read_owned hl h hx
    refine ⟨hi.store hl hg v, abs_store hg ho v ?_⟩
    rw [h]
    simp only [Prog.value, if_pos hx]
  | after a ws reg ls x v h hx =>
    obtain ⟨l, hg, ho⟩ := hi.write_owned h hx
    refine ⟨hi.store hl hg v, abs_store hg ho v ?_⟩
    rw [h]
    simp only [Prog.value, if_pos hx]

/-- A mutex is acquired. -/
theorem Inv.acquire (hl : Laws S rank top) {c : Config A L X V} (hi : Inv S c) {a : A} {k : Nat}
    {reg : (x : X) → V x} {l : L} (h : c.prog a = .entering k reg) (hk : (S.plan a reg)[k]? = some (.acquire l))
    (hf : c.owner l = none) :
    Inv S { c.go a (.entering (k + 1) reg) with owner := Function.update c.owner l (some a) } ∧
      abs S { c.go a (.entering (k + 1) reg) with owner := Function.update c.owner l (some a) } = abs S c := by
  set c' : Config A L X V := { c.go a (.entering (k + 1) reg) with owner := Function.update c.owner l (some a) } with hc'
  have hmem : c'.mem = c.mem := rfl
  have hpa : c'.prog a = .entering (k + 1) reg := Function.update_self ..
  have hpb : ∀ b, b ≠ a → c'.prog b = c.prog b := fun b hb => Function.update_of_ne hb ..
  have hnew : locks ((S.plan a reg).take (k + 1)) = locks ((S.plan a reg).take k) ++ [l] := by
    rw [take_get hk, locks_append]
    rfl
  have hreads : reads ((S.plan a reg).take (k + 1)) = reads ((S.plan a reg).take k) := by
    rw [take_get hk, reads_append]
    exact List.append_nil _
  have hha : holds S c' a = holds S c a ++ [l] := by
    unfold holds
    rw [hpa, h]
    show S.held a c.mem ++ locks _ = S.held a c.mem ++ locks _ ++ _
    rw [hnew, List.append_assoc]
  have hhb : ∀ b, b ≠ a → holds S c' b = holds S c b := by
    intro b hb
    unfold holds
    rw [hpb b hb, hmem]
  have hfree : ∀ b, l ∉ holds S c b := fun b hb => by
    rw [(hi.own b l).1 hb] at hf
    cases hf
  have hlen : k + 1 ≤ (S.plan a reg).length := (List.getElem?_eq_some_iff.1 hk).1
  refine ⟨⟨fun b l' => ?_, fun b => ?_, fun b k' reg' hp => ?_, fun b k' reg' hp => ?_, fun b k' reg' hp => ?_,
    fun b ws reg' ls hp x hx => ?_⟩, ?_⟩
  · show _ ↔ Function.update c.owner l (some a) l' = some b
    by_cases hb : b = a
    · subst hb
      rw [hha, List.mem_append, List.mem_singleton]
      by_cases hl' : l' = l
      · subst hl'
        rw [Function.update_self]
        exact ⟨fun _ => rfl, fun _ => Or.inr rfl⟩
      · rw [Function.update_of_ne hl', ← hi.own b l']
        exact ⟨fun h => h.resolve_right hl', Or.inl⟩
    · rw [hhb b hb]
      by_cases hl' : l' = l
      · subst hl'
        rw [Function.update_self]
        exact ⟨fun h => absurd h (hfree b), fun h => absurd (Option.some.inj h).symm hb⟩
      · rw [Function.update_of_ne hl', ← hi.own b l']
  · by_cases hb : b = a
    · subst hb
      rw [hha]
      refine List.nodup_append.2 ⟨hi.nodup b, List.nodup_singleton _, fun x hx y hy => ?_⟩
      rw [List.mem_singleton] at hy
      rintro rfl
      rw [hy] at hx
      exact hfree b hx
    · rw [hhb b hb]
      exact hi.nodup b
  · by_cases hb : b = a
    · subst hb
      rw [hpa] at hp
      cases hp
      exact hi.same _ _ _ h
    · rw [hpb b hb] at hp
      exact hi.same _ _ _ hp
  · by_cases hb : b = a
    · subst hb
      exact hi.awake _ _ _ h
    · rw [hpb b hb] at hp
      exact hi.awake _ _ _ hp
  · by_cases hb : b = a
    · subst hb
      rw [hpa] at hp
      cases hp
      exact hlen
    · rw [hpb b hb] at hp
      exact hi.le _ _ _ hp
  · by_cases hb : b = a
    · subst hb
      rw [hpa] at hp
      cases hp
    · rw [hpb b hb] at hp
      rw [hhb b hb]
      exact hi.pending _ _ _ _ hp x hx
  · funext x
    cases hg : S.guard x with
    | inr b => rw [abs_private hg, abs_private hg, hmem]
    | inl l' =>
      by_cases hl' : l' = l
      · subst hl'
        rw [abs_free hg hf, abs_owned (c := c') (a := a) hg (Function.update_self ..), hpa]
        simp only [Prog.value]
        rw [if_neg, hmem]
        rw [hreads]
        intro hx
        obtain ⟨l'', h1, h2⟩ := hi.read_owned hl h hx
        rw [hg] at h1
        cases h1
        rw [hf] at h2
        cases h2
      · have ho : c'.owner l' = c.owner l' := Function.update_of_ne hl' ..
        cases hb : c.owner l' with
        | none => rw [abs_free hg hb, abs_free hg (ho.trans hb), hmem]
        | some b =>
          rw [abs_owned hg hb, abs_owned hg (ho.trans hb)]
          by_cases hba : b = a
          · subst hba
            rw [hpa, h]
            simp only [Prog.value, hreads]
            rfl
          · rw [hpb b hba, hmem]

/-- A variable is read. -/
theorem Inv.read (hl : Laws S rank top) {c : Config A L X V} (hi : Inv S c) {a : A} {k : Nat}
    {reg : (x : X) → V x} {x : X} (h : c.prog a = .entering k reg) (hk : (S.plan a reg)[k]? = some (.read x)) :
    Inv S (c.go a (.entering (k + 1) (Function.update reg x (c.mem x)))) ∧
      abs S (c.go a (.entering (k + 1) (Function.update reg x (c.mem x)))) = abs S c := by
  obtain ⟨l, hg, ho⟩ := hi.next_owned hl h hk
  set reg' := Function.update reg x (c.mem x) with hreg'
  have hsame : S.Same a reg reg' := by
    intro y hy
    rw [hreg', Function.update_of_ne]
    rintro rfl
    rw [hg] at hy
    cases hy
  have hnot : x ∉ reads ((S.plan a reg).take k) := by
    have h1 := hl.reads_nodup a reg
    rw [← List.take_append_drop (k + 1) (S.plan a reg), reads_append, take_get hk, reads_append] at h1
    have h2 := (List.nodup_append.1 h1).1
    exact fun hx => (List.nodup_append.1 h2).2.2 x hx x (List.mem_singleton.2 rfl) rfl
  have hplan : (S.plan a reg).take (k + 1) = (S.plan a reg').take (k + 1) := by
    refine hl.plan_dep a k reg reg' hsame fun y hy => ?_
    rw [hreg', Function.update_of_ne]
    rintro rfl
    exact hnot hy
  have hlen : k + 1 ≤ (S.plan a reg').length := by
    have h1 : k + 1 ≤ (S.plan a reg).length := (List.getElem?_eq_some_iff.1 hk).1
    have h2 := congrArg List.length hplan
    rw [List.length_take, List.length_take] at h2
    omega
  refine ⟨hi.go a _ ?_ ?_ ?_, abs_go a _ ?_⟩
  · rw [h]
    show locks _ = locks _
    rw [← hplan, take_get hk, locks_append]
    exact List.append_nil _
  · intro k' r he
    cases he
    exact ⟨fun y hy => (hsame y hy).symm.trans (hi.same _ _ _ h y hy), hi.awake _ _ _ h, hlen⟩
  · intro ws r ls he
    cases he
  · intro y l' hy hb
    rw [h]
    simp only [Prog.value]
    rw [← hplan, take_get hk, reads_append]
    by_cases hyx : y = x
    · subst hyx
      have h1 : y ∈ reads ((S.plan a reg).take k) ++ reads [(.read y : Instr L X)] := List.mem_append_right _ (List.mem_singleton.2 rfl)
      rw [if_pos h1, if_neg hnot]
      exact Function.update_self ..
    · have h1 : (y ∈ reads ((S.plan a reg).take k) ++ reads [(.read x : Instr L X)]) ↔ y ∈ reads ((S.plan a reg).take k) := by
        rw [List.mem_append]
        refine ⟨fun h => h.resolve_right fun h2 => hyx (List.mem_singleton.1 h2), Or.inl⟩
      by_cases hyr : y ∈ reads ((S.plan a reg).take k)
      · rw [if_pos (h1.2 hyr), if_pos hyr]
        exact Function.update_of_ne hyx ..
      · rw [if_neg (fun h2 => hyr (h1.1 h2)), if_neg hyr]

theorem Inv.not_rest (hl : Laws S rank top) {c : Config A L X V} (hi : Inv S c) {a : A} {k : Nat}
    {reg : (x : X) → V x} (h : c.prog a = .entering k reg) : ¬ S.rest a reg :=
  fun hr => hi.awake _ _ _ h (hl.rest_dep _ _ _ (hi.same _ _ _ h) hr)

/-- The values in the registers are those at the moment of the computation. -/
theorem Inv.registers (hl : Laws S rank top) {c : Config A L X V} (hi : Inv S c) {a : A} {k : Nat}
    {reg : (x : X) → V x} (h : c.prog a = .entering k reg) (hk : (S.plan a reg).length = k) :
    S.Same a reg (abs S c) ∧ ∀ x ∈ reads (S.plan a reg), reg x = abs S c x := by
  refine ⟨fun x hx => ?_, fun x hx => ?_⟩
  · rw [abs_private hx]
    exact hi.same _ _ _ h x hx
  · have hx' : x ∈ reads ((S.plan a reg).take k) := by
      rw [← hk, List.take_length]
      exact hx
    obtain ⟨l, hg, ho⟩ := hi.read_owned hl h hx'
    rw [abs_owned hg ho, h]
    simp only [Prog.value, if_pos hx']

/-- Mutexes that are kept and mutexes to be released. -/
theorem mem_split {old new : List L} (h : ∀ l ∈ new, l ∈ old) (l : L) :
    l ∈ new ++ old.filter (fun l => l ∉ new) ↔ l ∈ old := by
  rw [List.mem_append, List.mem_filter]
  by_cases hn : l ∈ new
  · exact ⟨fun _ => h l hn, fun _ => Or.inl hn⟩
  · constructor
    · rintro (h1 | ⟨h1, _⟩)
      · exact absurd h1 hn
      · exact h1
    · exact fun h1 => Or.inr ⟨h1, by simpa using hn⟩

theorem nodup_split {old new : List L} (h1 : old.Nodup) (h2 : new.Nodup) :
    (new ++ old.filter (fun l => l ∉ new)).Nodup := by
  refine List.nodup_append.2 ⟨h2, h1.filter _, fun x hx y hy => ?_⟩
  rintro rfl
  have := (List.mem_filter.1 hy).2
  exact absurd hx (by simpa using this)

/-- The results are computed. -/
theorem Inv.compute (hl : Laws S rank top) {c : Config A L X V} (hi : Inv S c) {a : A} {k : Nat}
    {reg s : (x : X) → V x} {ch : C} (h : c.prog a = .entering k reg) (hk : (S.plan a reg).length = k)
    (hs : S.act a ch reg = .ok (some s)) :
    Inv S ((c.setPrivate S a s).go a (.leaving (S.touched a reg) s
        ((S.held a reg ++ locks (S.plan a reg)).filter fun l => l ∉ S.held a s))) ∧
      ¬ S.rest a (abs S c) ∧ S.act a ch (abs S c) = .ok (some (abs S ((c.setPrivate S a s).go a
        (.leaving (S.touched a reg) s ((S.held a reg ++ locks (S.plan a reg)).filter fun l => l ∉ S.held a s))))) := by
  set ls := (S.held a reg ++ locks (S.plan a reg)).filter fun l => l ∉ S.held a s with hls
  set c' := (c.setPrivate S a s).go a (.leaving (S.touched a reg) s ls) with hc'
  have hpa : c'.prog a = .leaving (S.touched a reg) s ls := Function.update_self ..
  have hpb : ∀ b, b ≠ a → c'.prog b = c.prog b := fun b hb => Function.update_of_ne hb ..
  have hown : c'.owner = c.owner := rfl
  have hmema : ∀ x, S.guard x = .inr a → c'.mem x = s x := fun x hx => if_pos hx
  have hmem : ∀ x, S.guard x ≠ .inr a → c'.mem x = c.mem x := fun x hx => if_neg hx
  have hsame : ∀ b, b ≠ a → S.Same b c'.mem c.mem := by
    intro b hb x hx
    refine hmem x ?_
    rw [hx]
    exact fun h => hb (Sum.inr.inj h)
  have hold : holds S c a = S.held a reg ++ locks (S.plan a reg) := by
    unfold holds
    rw [h, ← hl.held_dep _ _ _ (hi.same _ _ _ h)]
    show _ ++ locks _ = _
    rw [← hk, List.take_length]
  have hha : holds S c' a = S.held a s ++ ls := by
    unfold holds
    rw [hpa, hl.held_dep a c'.mem s hmema]
    rfl
  have hsub := hl.act_held _ _ _ _ hs
  have hhmem : ∀ l, l ∈ holds S c' a ↔ l ∈ holds S c a := by
    intro l
    rw [hha, hold, hls]
    exact mem_split hsub l
  have hhb : ∀ b, b ≠ a → holds S c' b = holds S c b := by
    intro b hb
    unfold holds
    rw [hpb b hb, hl.held_dep _ _ _ (hsame b hb)]
  obtain ⟨hr1, hr2⟩ := hi.registers hl h hk
  obtain ⟨t, ht, t1, t2, t3⟩ := hl.act_frame a ch reg (abs S c) s (hi.not_rest hl h) hr1 hr2 hs
  have htouch : ∀ x ∈ S.touched a reg, ∃ l, S.guard x = .inl l ∧ l ∈ holds S c a := by
    intro x hx
    rcases List.mem_append.1 hx with h1 | h1
    · have hx' : x ∈ reads ((S.plan a reg).take k) := by
        rw [← hk, List.take_length]
        exact h1
      obtain ⟨l, hg, ho⟩ := hi.read_owned hl h hx'
      exact ⟨l, hg, (hi.own a l).2 ho⟩
    · obtain ⟨l, hg, hm⟩ := hl.extra_guard _ _ _ h1
      exact ⟨l, hg, by rw [hold]; exact hm⟩
  refine ⟨⟨fun b l => ?_, fun b => ?_, fun b k' reg' hp => ?_, fun b k' reg' hp => ?_, fun b k' reg' hp => ?_,
    fun b ws reg' ls' hp x hx => ?_⟩, ?_⟩
  · rw [hown]
    by_cases hb : b = a
    · subst hb
      rw [hhmem l]
      exact hi.own b l
    · rw [hhb b hb]
      exact hi.own b l
  · by_cases hb : b = a
    · subst hb
      rw [hha, hls]
      refine nodup_split ?_ (hl.held_nodup _ _)
      rw [← hold]
      exact hi.nodup b
    · rw [hhb b hb]
      exact hi.nodup b
  · by_cases hb : b = a
    · subst hb
      rw [hpa] at hp
      cases hp
    · rw [hpb b hb] at hp
      exact fun x hx => (hi.same _ _ _ hp x hx).trans (hsame b hb x hx).symm
  · by_cases hb : b = a
    · subst hb
      rw [hpa] at hp
      cases hp
    · rw [hpb b hb] at hp
      exact fun hr => hi.awake _ _ _ hp (hl.rest_dep _ _ _ (hsame b hb) hr)
  · by_cases hb : b = a
    · subst hb
      rw [hpa] at hp
      cases hp
    · rw [hpb b hb] at hp
      exact hi.le _ _ _ hp
  · by_cases hb : b = a
    · subst hb
      rw [hpa] at hp
      obtain ⟨rfl, -, -⟩ := Prog.leaving.inj hp
      obtain ⟨l, hg, hm⟩ := htouch x hx
      exact ⟨l, hg, (hhmem l).2 hm⟩
    · rw [hpb b hb] at hp
      rw [hhb b hb]
      exact hi.pending _ _ _ _ hp x hx
  · have heq : abs S c' = t := by
      funext x
      cases hg : S.guard x with
      | inr b =>
        rw [abs_private hg]
        by_cases hb : b = a
        · subst hb
          rw [hmema x hg, t1 x hg]
        · have hne : S.guard x ≠ .inr a := by
            rw [hg]
            exact fun h => hb (Sum.inr.inj h)
          rw [hmem x hne, t3 x hne, abs_private hg]
          intro hx
          obtain ⟨l, h1, _⟩ := htouch x hx
          rw [hg] at h1
          cases h1
      | inl l =>
        have hne : S.guard x ≠ .inr a := by
          rw [hg]
          intro h
          cases h
        by_cases hx : x ∈ S.touched a reg
        · obtain ⟨l', h1, h2⟩ := htouch x hx
          rw [t2 x hx, abs_owned (c := c') h1 ((hi.own a l').1 h2), hpa]
          simp only [Prog.value, if_pos hx]
        · rw [t3 x hne hx]
          cases ho : c.owner l with
          | none => rw [abs_free (c := c') hg ho, abs_free hg ho, hmem x hne]
          | some b =>
            rw [abs_owned (c := c') hg ho, abs_owned hg ho]
            by_cases hb : b = a
            · subst hb
              rw [hpa, h]
              simp only [Prog.value, if_neg hx]
              rw [if_neg, hmem x hne]
              exact fun h2 => hx (List.mem_append_left _ (reads_mem_of_take h2))
            · rw [hpb b hb]
              unfold Prog.value
              rw [hmem x hne]
    rw [heq]
    exact ⟨fun hr => hi.awake _ _ _ h (hl.rest_dep _ _ _ (fun x hx => abs_private hx) hr), ht⟩

/-- A variable is written. -/
theorem Inv.write (hl : Laws S rank top) {c : Config A L X V} (hi : Inv S c) {a : A} {ws : List X} {ls : List L}
    {reg : (x : X) → V x} {x : X} (h : c.prog a = .leaving ws reg ls) (hx : x ∈ ws) :
    Inv S ((c.store x (reg x)).go a (.leaving (ws.filter fun y => y ≠ x) reg ls)) ∧
      abs S ((c.store x (reg x)).go a (.leaving (ws.filter fun y => y ≠ x) reg ls)) = abs S c := by
  obtain ⟨l, hg, ho⟩ := hi.write_owned h hx
  have h1 := hi.store hl hg (reg x)
  have hp : (c.store x (reg x)).prog a = .leaving ws reg ls := h
  refine ⟨h1.go a _ ?_ ?_ ?_, ?_⟩
  · rw [hp]
    rfl
  · intro k r he
    cases he
  · intro ws' r ls' he y hy
    cases he
    exact h1.pending _ _ _ _ hp y (List.mem_filter.1 hy).1
  · have h2 : abs S (c.store x (reg x)) = abs S c := by
      refine abs_store hg ho _ ?_
      rw [h]
      simp only [Prog.value, if_pos hx]
    rw [← h2]
    refine abs_go a _ fun y l' hy hb => ?_
    rw [hp]
    simp only [Prog.value]
    by_cases hyx : y = x
    · subst hyx
      rw [if_pos hx, if_neg (by simp)]
      exact Function.update_self ..
    · by_cases hyw : y ∈ ws
      · rw [if_pos hyw, if_pos (List.mem_filter.2 ⟨hyw, by simpa using hyx⟩)]
      · rw [if_neg hyw, if_neg (fun h => hyw (List.mem_filter.1 h).1)]

/-- A mutex is released. -/
theorem Inv.release {c : Config A L X V} (hi : Inv S c) {a : A} {l : L} {ls : List L}
    {reg : (x : X) → V x} (h : c.prog a = .leaving [] reg (l :: ls)) :
    Inv S { c.go a (.leaving [] reg ls) with owner := Function.update c.owner l none } ∧
      abs S { c.go a (.leaving [] reg ls) with owner := Function.update c.owner l none } = abs S c := by
  set c' : Config A L X V := { c.go a (.leaving [] reg ls) with owner := Function.update c.owner l none } with hc'
  have hmem : c'.mem = c.mem := rfl
  have hpa : c'.prog a = .leaving [] reg ls := Function.update_self ..
  have hpb : ∀ b, b ≠ a → c'.prog b = c.prog b := fun b hb => Function.update_of_ne hb ..
  have hold : holds S c a = S.held a c.mem ++ l :: ls := by
    unfold holds
    rw [h]
    rfl
  have hha : holds S c' a = S.held a c.mem ++ ls := by
    unfold holds
    rw [hpa]
    rfl
  have hhb : ∀ b, b ≠ a → holds S c' b = holds S c b := by
    intro b hb
    unfold holds
    rw [hpb b hb, hmem]
  have hnd := hi.nodup a
  rw [hold] at hnd
  have hnd2 : l ∉ S.held a c.mem ++ ls ∧ (S.held a c.mem ++ ls).Nodup := List.nodup_cons.1 (List.nodup_middle.1 hnd)
  have hol : c.owner l = some a := (hi.own a l).1 (by rw [hold]; simp)
  refine ⟨⟨fun b l' => ?_, fun b => ?_, fun b k' reg' hp => ?_, fun b k' reg' hp => ?_, fun b k' reg' hp => ?_,
    fun b ws reg' ls hp x hx => ?_⟩, ?_⟩
  · show _ ↔ Function.update c.owner l none l' = some b
    by_cases hl' : l' = l
    · subst hl'
      rw [Function.update_self]
      refine ⟨fun hm => ?_, fun h => by cases h⟩
      by_cases hb : b = a
      · subst hb
        rw [hha] at hm
        exact absurd hm hnd2.1
      · rw [hhb b hb, hi.own b l', hol] at hm
        exact absurd (Option.some.inj hm).symm hb
    · rw [Function.update_of_ne hl', ← hi.own b l']
      by_cases hb : b = a
      · subst hb
        rw [hha, hold, List.mem_append, List.mem_append, List.mem_cons]
        tauto
      · rw [hhb b hb]
  · by_cases hb : b = a
    · subst hb
      rw [hha]
      exact hnd2.2
    · rw [hhb b hb]
      exact hi.nodup b
  · by_cases hb : b = a
    · subst hb
      rw [hpa] at hp
      cases hp
    · rw [hpb b hb] at hp
      exact hi.same _ _ _ hp
  · by_cases hb : b = a
    · subst hb
      rw [hpa] at hp
      cases hp
    · rw [hpb b hb] at hp
      exact hi.awake _ _ _ hp
  · by_cases hb : b = a
    · subst hb
      rw [hpa] at hp
      cases hp
    · rw [hpb b hb] at hp
      exact hi.le _ _ _ hp
  · by_cases hb : b = a
    · subst hb
      rw [hpa] at hp
      cases hp
      cases hx
    · rw [hpb b hb] at hp
      rw [hhb b hb]
      exact hi.pending _ _ _ _ hp x hx
  · funext x
    cases hg : S.guard x with
    | inr b => rw [abs_private hg, abs_private hg, hmem]
    | inl l' =>
      by_cases hl' : l' = l
      · subst hl'
        rw [abs_free (c := c') hg (Function.update_self ..), abs_owned hg hol, h]
        simp [Prog.value]
        rfl
      · have ho : c'.owner l' = c.owner l' := Function.update_of_ne hl' ..
        cases hb : c.owner l' with
        | none => rw [abs_free hg hb, abs_free hg (ho.trans hb), hmem]
        | some b =>
          rw [abs_owned hg hb, abs_owned hg (ho.trans hb)]
          by_cases hba : b = a
          · subst hba
            rw [hpa, h]
            rfl
          · rw [hpb b hba, hmem]

/-- A notification or a join. -/
theorem Inv.sync (hl : Laws S rank top) {c : Config A L X V} (hi : Inv S c) {a : A} {m : (x : X) → V x}
    (r : (x : X) → V x) (h : c.prog a = .out) (hs : S.sync a c.mem m) :
    Inv S ({ c with mem := m }.go a (.leaving [] r ((S.held a c.mem).filter fun l => l ∉ S.held a m))) ∧
      S.sync a (abs S c)
        (abs S ({ c with mem := m }.go a (.leaving [] r ((S.held a c.mem).filter fun l => l ∉ S.held a m)))) := by
  set ls := (S.held a c.mem).filter fun l => l ∉ S.held a m with hls
  set c' := { c with mem := m }.go a (.leaving [] r ls) with hc'
  have hpa : c'.prog a = .leaving [] r ls := Function.update_self ..
  have hpb : ∀ b, b ≠ a → c'.prog b = c.prog b := fun b hb => Function.update_of_ne hb ..
  have hown : c'.owner = c.owner := rfl
  have hold : holds S c a = S.held a c.mem := by
    unfold holds
    rw [h]
    exact List.append_nil _
  have hha : holds S c' a = S.held a m ++ ls := by
    unfold holds
    rw [hpa]
    rfl
  have hhmem : ∀ l, l ∈ holds S c' a ↔ l ∈ holds S c a := by
    intro l
    rw [hha, hold, hls]
    exact mem_split (hl.sync_held _ _ _ hs) l
  have hhb : ∀ b, b ≠ a → holds S c' b = holds S c b := by
    intro b hb
    unfold holds
    rw [hpb b hb]
    show S.held b m ++ _ = _
    rcases hl.sync_other _ _ _ hs b hb with h1 | ⟨_, h1⟩
    · rw [hl.held_dep _ _ _ h1]
    · rw [h1]
  have hsame : ∀ b k reg, b ≠ a → c.prog b = .entering k reg → S.Same b m c.mem := by
    intro b k reg hb hp
    rcases hl.sync_other _ _ _ hs b hb with h1 | ⟨h1, _⟩
    · exact h1
    · exact absurd h1 (hi.awake _ _ _ hp)
  refine ⟨⟨fun b l => ?_, fun b => ?_, fun b k' reg' hp => ?_, fun b k' reg' hp => ?_, fun b k' reg' hp => ?_,
    fun b ws reg' ls' hp x hx => ?_⟩, ?_⟩
  · rw [hown]
    by_cases hb : b = a
    · subst hb
      rw [hhmem l]
      exact hi.own b l
    · rw [hhb b hb]
      exact hi.own b l
  · by_cases hb : b = a
    · subst hb
      rw [hha, hls]
      exact nodup_split (hl.held_nodup _ _) (hl.held_nodup _ _)
    · rw [hhb b hb]
      exact hi.nodup b
  · by_cases hb : b = a
    · subst hb
      rw [hpa] at hp
      cases hp
    · rw [hpb b hb] at hp
      exact fun x hx => (hi.same _ _ _ hp x hx).trans (hsame b _ _ hb hp x hx).symm
  · by_cases hb : b = a
    · subst hb
      rw [hpa] at hp
      cases hp
    · rw [hpb b hb] at hp
      exact fun hr => hi.awake _ _ _ hp (hl.rest_dep _ _ _ (hsame b _ _ hb hp) hr)
  · by_cases hb : b = a
    · subst hb
      rw [hpa] at hp
      cases hp
    · rw [hpb b hb] at hp
      exact hi.le _ _ _ hp
  · by_cases hb : b = a
    · subst hb
      rw [hpa] at hp
      obtain ⟨rfl, -, -⟩ := Prog.leaving.inj hp
      cases hx
    · rw [hpb b hb] at hp
      rw [hhb b hb]
      exact hi.pending _ _ _ _ hp x hx
  · refine hl.sync_frame a c.mem (abs S c) m _ hs (fun x b hx => (abs_private hx).symm)
      (fun x b hx => abs_private hx) fun x l hx => ?_
    have hmx : m x = c.mem x := hl.sync_shared _ _ _ hs x l hx
    cases ho : c.owner l with
    | none =>
      rw [abs_free (c := c') hx ho, abs_free hx ho]
      exact hmx
    | some b =>
      rw [abs_owned (c := c') hx ho, abs_owned hx ho]
      by_cases hb : b = a
      · subst hb
        rw [hpa, h]
        simp [Prog.value]
        exact hmx
      · rw [hpb b hb]
        unfold Prog.value
        rw [show c'.mem x = c.mem x from hmx]

/-- Every step is a step of the machine with sections as single steps, or nothing happens there. -/
theorem Inv.step (hl : Laws S rank top) {c c' : Config A L X V} (hi : Inv S c) {a : A} (h : Step S a c c') :
    Inv S c' ∧ (abs S c' = abs S c ∨ Big S (abs S c) (abs S c')) := by
  cases h with
  | enter reg h hr hp =>
    refine ⟨hi.go a _ ?_ ?_ ?_, Or.inl (abs_go a _ ?_)⟩
    · rw [h]
      rfl
    · intro k r he
      cases he
      exact ⟨hp, hr, Nat.zero_le _⟩
    · intro ws r ls he
      cases he
    · intro x l hx ho
      rw [h]
      simp [Prog.value, reads]
  | acquire k reg l h hk hf => exact ⟨(hi.acquire hl h hk hf).1, Or.inl (hi.acquire hl h hk hf).2⟩
  | read k reg x h hk => exact ⟨(hi.read hl h hk).1, Or.inl (hi.read hl h hk).2⟩
  | compute k reg s ch h hk hs => exact ⟨(hi.compute hl h hk hs).1, Or.inr (.act a ch (hi.compute hl h hk hs).2.1 (hi.compute hl h hk hs).2.2)⟩
  | write ws reg ls x h hx => exact ⟨(hi.write hl h hx).1, Or.inl (hi.write hl h hx).2⟩
  | release reg l ls h => exact ⟨(hi.release h).1, Or.inl (hi.release h).2⟩
  | exit reg h =>
    refine ⟨hi.go a _ ?_ ?_ ?_, Or.inl (abs_go a _ ?_)⟩
    · rw [h]
      rfl
    · intro k r he
      cases he
    · intro ws r ls he
      cases he
    · intro x l hx ho
      rw [h]
      simp [Prog.value]
  | sync m r h hs => exact ⟨(hi.sync hl r h hs).1, Or.inr (.sync a (hi.sync hl r h hs).2)⟩

/-- In the beginning nobody holds a mutex. -/
theorem Inv.initial (S : System A L X C V) (c : Config A L X V) (h1 : ∀ l, c.owner l = none) (h2 : ∀ a, c.prog a = .out)
    (h3 : ∀ a, S.held a c.mem = []) : Inv S c ∧ abs S c = c.mem := by
  have hh : ∀ a, holds S c a = [] := by
    intro a
    unfold holds
    rw [h2, h3]
    rfl
  refine ⟨⟨fun a l => ?_, fun a => ?_, fun a k reg hp => ?_, fun a k reg hp => ?_, fun a k reg hp => ?_,
    fun a ws reg ls hp => ?_⟩, ?_⟩
  · rw [hh, h1]
    simp
  · rw [hh]
    exact List.nodup_nil
  all_goals try (rw [h2] at hp; cases hp)
  funext x
  cases hg : S.guard x with
  | inr b => exact abs_private hg
  | inl l => exact abs_free hg (h1 l)

/-- If an agent is in a section, then some agent that is in a section or holds a mutex can make a step (or something is
computed that is undefined). -/
theorem Inv.progress (hl : Laws S rank top) {c : Config A L X V} (hi : Inv S c) {a : A}
    (h : c.prog a ≠ .out) :
    Fails S c ∨ ∃ b c', Step S b c c' ∧ (c.prog b ≠ .out ∨ S.held b c.mem ≠ []) := by
  have key : ∀ n b, (c.prog b ≠ .out ∨ S.held b c.mem ≠ []) →
      (∀ l, (∃ k reg, c.prog b = .entering k reg ∧ (S.plan b reg)[k]? = some (.acquire l)) → top + 1 ≤ n + rank l) →
      Fails S c ∨ ∃ b c', Step S b c c' ∧ (c.prog b ≠ .out ∨ S.held b c.mem ≠ []) := by
    intro n
    induction n with
    | zero =>
      intro b hb hn
      cases hp : c.prog b with
      | out =>
        have hne := hb.resolve_left (fun h => h hp)
        by_cases hr : S.rest b c.mem
        · obtain ⟨s, hs⟩ := hl.busy b c.mem hne hr
          exact Or.inr ⟨b, _, .sync c s s hp hs, hb⟩
        · exact Or.inr ⟨b, _, .enter c c.mem hp hr (fun _ _ => rfl), hb⟩
      | entering k reg =>
        cases hx : (S.plan b reg)[k]? with
        | none =>
          have hk : (S.plan b reg).length = k := by
            have h1 := hi.le _ _ _ hp
            rw [List.getElem?_eq_none_iff] at hx
            omega
          obtain ⟨ch, hch⟩ := hl.awake b reg (hi.not_rest hl hp)
          cases ha : S.act b ch reg with
          | ok o =>
            cases o with
            | none => exact absurd ha hch
            | some s => exact Or.inr ⟨b, _, .compute c k reg s ch hp hk ha, hb⟩
          | _ => exact Or.inl ⟨b, k, reg, ch, hp, hk, fun o => by rw [ha]; intro h; cases h⟩
        | some i =>
          cases i with
          | read x => exact Or.inr ⟨b, _, .read c k reg x hp hx, hb⟩
          | acquire l =>
            have h1 := hn l ⟨k, reg, hp, hx⟩
            have h2 := hl.rank_le l
            omega
      | leaving ws reg ls =>
        cases ws with
        | cons x ws => exact Or.inr ⟨b, _, .write c _ reg ls x hp List.mem_cons_self, hb⟩
        | nil =>
          cases ls with
          | nil => exact Or.inr ⟨b, _, .exit c reg hp, hb⟩
          | cons l ls => exact Or.inr ⟨b, _, .release c reg l ls hp, hb⟩
    | succ n ih =>
      intro b hb hn
      by_cases hw : ∃ l k reg, c.prog b = .entering k reg ∧ (S.plan b reg)[k]? = some (.acquire l)
      · obtain ⟨l, k, reg, hp, hx⟩ := hw
        cases ho : c.owner l with
        | none => exact Or.inr ⟨b, _, .acquire c k reg l hp hx ho, hb⟩
        | some d =>
          have hm : l ∈ holds S c d := (hi.own d l).2 ho
          refine ih d ?_ ?_
          · by_contra hcon
            rw [not_or, not_not, not_not] at hcon
            unfold holds at hm
            rw [hcon.1, hcon.2] at hm
            cases hm
          · rintro l' ⟨k', reg', hp', hx'⟩
            have h1 := hn l ⟨k, reg, hp, hx⟩
            have h2 := hl.rank_lt _ _ _ _ hx' l (by
              unfold holds at hm
              rw [hp', ← hl.held_dep _ _ _ (hi.same _ _ _ hp')] at hm
              exact hm)
            omega
      · refine ih b hb ?_
        rintro l ⟨k, reg, hp, hx⟩
        exact absurd ⟨l, k, reg, hp, hx⟩ hw
  exact key (top + 1) a (Or.inl h) fun l _ => by omega

/-- Nothing undefined is computed unless the machine with sections as single steps does so. -/
theorem Inv.fails (hl : Laws S rank top) {c : Config A L X V} (hi : Inv S c) (h : Fails S c) :
    ∃ a ch, ¬ S.rest a (abs S c) ∧ ∀ o, S.act a ch (abs S c) ≠ .ok o := by
  obtain ⟨a, k, reg, ch, hp, hk, hf⟩ := h
  obtain ⟨h1, h2⟩ := hi.registers hl hp hk
  have hr := hi.not_rest hl hp
  exact ⟨a, ch, fun h => hr (hl.rest_dep _ _ _ (fun x hx => (h1 x hx).symm) h),
    hl.act_fails a ch reg (abs S c) hr h1 h2 hf⟩

end Locks
end Hycu
