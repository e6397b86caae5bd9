import Verif.Lemmas.LocksFair

/-!
There are fair executions in which no notification is lost.
-/

namespace Hycu
namespace Locks

set_option linter.unusedSectionVars false

variable {A L X C : Type} {V : X → Type} [DecidableEq A] [DecidableEq L] [DecidableEq X] {S : System A L X C V}
  {rank : L → Nat} {top : Nat}

/-- Agents that are `urgent` lose notifications, until they have made their next section. -/
structure Eager (S : System A L X C V) (sleeper : A → Prop) (urgent : A → ((x : X) → V x) → Prop) : Prop where
  dep : ∀ a m n, S.Same a m n → urgent a m → urgent a n
  rest : ∀ a m, urgent a m → ¬ S.rest a m
  act : ∀ a ch m s, urgent a m → S.act a ch m = .ok (some s) → ¬ urgent a s ∧ S.held a s = []
  sync : ∀ a b m s, S.sync a m s → urgent b s → urgent b m
  /-- the possibility of a notification or join does not end -/
  stays_act : ∀ a b m n, b ≠ a → ¬ sleeper a → (∃ t, S.sync a m t) → ¬ S.rest b m →
    (∀ x d, S.guard x = .inr d → d ≠ b → n x = m x) → ∃ t, S.sync a n t
  stays_sync : ∀ a b m n, b ≠ a → ¬ sleeper a → (∃ t, S.sync a m t) → S.sync b m n → ∃ t, S.sync a n t

/-- No notification is lost in a step of an agent. -/
def Calm (S : System A L X C V) (urgent : A → ((x : X) → V x) → Prop) (c : Config A L X V) (a : A) : Prop :=
  c.prog a = .out → S.rest a c.mem → ∀ b, ¬ urgent b c.mem

/-- Several steps of one agent. -/
inductive Trip (S : System A L X C V) (urgent : A → ((x : X) → V x) → Prop) (a : A) :
    Nat → Config A L X V → Config A L X V → Prop
  | nil (c : Config A L X V) : Trip S urgent a 0 c c
  | cons {c d e : Config A L X V} {n : Nat} (h : Calm S urgent c a) (hs : Step S a c d) (ht : Trip S urgent a n d e) :
      Trip S urgent a (n + 1) c e

variable {urgent : A → ((x : X) → V x) → Prop} {sleeper : A → Prop}

theorem Trip.trans {a : A} {n m : Nat} {c d e : Config A L X V} (h : Trip S urgent a n c d) (h' : Trip S urgent a m d e) :
    Trip S urgent a (n + m) c e := by
  induction h with
  | nil c => rw [Nat.zero_add]; exact h'
  | cons h hs _ ih => rw [Nat.add_right_comm]; exact .cons h hs (ih h')

theorem Within.trip {a : A} {c d : Config A L X V} (h : Within S a c d) : ∃ n, Trip S urgent a n c d := by
  induction h with
  | refl => exact ⟨0, .nil _⟩
  | step _ hp hs ih =>
    obtain ⟨n, ih⟩ := ih
    exact ⟨n + 1, ih.trans (.cons (fun ho => absurd ho hp) hs (.nil _))⟩

theorem Trip.reachable {a : A} {n : Nat} {c d : Config A L X V} (h : Trip S urgent a n c d) : Reachable S c d := by
  induction h with
  | nil c => exact .refl
  | cons _ hs _ ih => exact (Reachable.one hs).trans ih

/-- Nobody is in a section, nobody is urgent. -/
structure Quiet (S : System A L X C V) (urgent : A → ((x : X) → V x) → Prop) (c₀ c : Config A L X V) : Prop where
  reach : Reachable S c₀ c
  out : ∀ a, c.prog a = .out
  held : ∀ a, S.held a c.mem = []
  calm : ∀ a, ¬ urgent a c.mem

section

variable {agents : List A} {c₀ : Config A L X V}

theorem Quiet.free (hl : Laws S rank top) (hi : Inv S c₀) {c : Config A L X V} (hr : Reachable S c₀ c)
    (ho : ∀ a, c.prog a = .out) (hh : ∀ a, S.held a c.mem = []) (l : L) : c.owner l = none := by
  cases hd : c.owner l with
  | none => rfl
  | some b =>
    have := (hi.reachable hl hr).held_of_owner (ho b) hd
    rw [hh] at this
    cases this

/-- What remains of a section. -/
theorem act_others (hl : Laws S rank top) {a : A} {ch : C} {m s : (x : X) → V x} (hr : ¬ S.rest a m)
    (ha : S.act a ch m = .ok (some s)) {b : A} (hb : b ≠ a) : S.Same b s m := by
  intro x hx
  obtain ⟨t, ht, _, _, hfr⟩ := hl.act_frame a ch _ _ _ hr (fun _ _ => rfl) (fun _ _ => rfl) ha
  rw [ha] at ht
  cases ht
  refine hfr x (by rw [hx]; simpa using hb) fun hx' => ?_
  rcases List.mem_append.1 hx' with hx' | hx'
  · obtain ⟨k, _, hk⟩ := reads_take (k := (S.plan a m).length) (by rwa [List.take_length])
    obtain ⟨l, hg, _⟩ := hl.read_guard _ _ _ _ hk
    rw [hx] at hg
    cases hg
  · obtain ⟨l, hg, _⟩ := hl.extra_guard _ _ _ hx'
    rw [hx] at hg
    cases hg

/-- A section as a whole. -/
theorem trip_act (hl : Laws S rank top) (hi : Inv S c₀) (hsafe : ∀ c, Reachable S c₀ c → ¬ Fails S c)
    {c : Config A L X V} {a : A} (hr : Reachable S c₀ c) (ho : ∀ a, c.prog a = .out) (hh : ∀ a, S.held a c.mem = [])
    (ha : ¬ S.rest a c.mem) : ∃ n d ch, Trip S urgent a (n + 1) c d ∧ (∀ a, d.prog a = .out) ∧
      S.act a ch c.mem = .ok (some d.mem) := by
  obtain ⟨ch, hch⟩ := hl.awake a c.mem ha
  have hf := Quiet.free hl hi hr ho hh
  have hok : ∃ s, S.act a ch c.mem = .ok (some s) := by
    have hb := before hl (a := a) (fun l _ => hf l) _ (Nat.le_refl (S.plan a c.mem).length)
    have hre := (hr.trans (Reachable.one (Step.enter c c.mem (ho a) ha fun _ _ => rfl))).trans hb.reachable
    cases he : S.act a ch c.mem with
    | ok o =>
      cases o with
      | none => exact absurd he hch
      | some s => exact ⟨s, rfl⟩
    | _ => exact absurd ⟨a, _, c.mem, ch, go_prog .., rfl, fun o => by rw [he]; intro h; cases h⟩ (hsafe _ hre)
  obtain ⟨s, hs⟩ := hok
  obtain ⟨d, h1, h2, rfl, h4⟩ := section_within hl (ho a) ha (fun l _ => hf l) hs
  obtain ⟨n, h2⟩ := h2.trip (urgent := urgent)
  exact ⟨n, d, ch, .cons (fun _ h => absurd h ha) h1 h2, fun b => by rw [h4]; exact ho b, hs⟩

/-- A notification or join as a whole. -/
theorem trip_sync {c : Config A L X V} {a : A} (ho : ∀ a, c.prog a = .out) (hu : ∀ a, ¬ urgent a c.mem)
    {s : (x : X) → V x} (hs : S.sync a c.mem s) :
    ∃ n d, Trip S urgent a (n + 1) c d ∧ (∀ a, d.prog a = .out) ∧ d.mem = s := by
  obtain ⟨d, e, h1, h2, h3, h4⟩ := sync_within (ho a) hs
  obtain ⟨n, h2⟩ := h2.trip (urgent := urgent)
  exact ⟨n, e, .cons (fun _ _ => hu) h1 h2, fun b => by rw [h4]; exact ho b, h3⟩

/-- From a quiet state an agent gets to a quiet state again. -/
theorem Quiet.trip (hl : Laws S rank top) (he : Eager S sleeper urgent) (hsh : Short S agents) (hi : Inv S c₀)
    (hsafe : ∀ c, Reachable S c₀ c → ¬ Fails S c) {c : Config A L X V} {a : A} (hq : Quiet S urgent c₀ c)
    (ha : ¬ S.rest a c.mem ∨ ∃ s, S.sync a c.mem s) : ∃ n d, Trip S urgent a (n + 1) c d ∧ Quiet S urgent c₀ d := by
  have afterSync : ∀ {d : Config A L X V} {m : (x : X) → V x}, S.sync a m d.mem → Reachable S c₀ d → (∀ a, d.prog a = .out) →
      (∀ b, b ≠ a → S.held b m = []) → (∀ b, ¬ urgent b m) → Quiet S urgent c₀ d := by
    intro d m hs hr ho hh hu
    refine ⟨hr, ho, fun b => ?_, fun b hb => hu b (he.sync a b _ _ hs hb)⟩
    by_cases hba : b = a
    · subst hba
      exact hsh.frees _ _ _ hs
    · rcases hl.sync_other _ _ _ hs b hba with h | ⟨_, h⟩
      · rw [hl.held_dep _ _ _ h]; exact hh b hba
      · rw [h]; exact hh b hba
  by_cases hr : S.rest a c.mem
  · obtain ⟨s, hs⟩ := ha.resolve_left fun h => h hr
    obtain ⟨n, d, h1, h2, rfl⟩ := trip_sync (urgent := urgent) hq.out hq.calm hs
    exact ⟨n, d, h1, afterSync hs (hq.reach.trans h1.reachable) h2 (fun b _ => hq.held b) hq.calm⟩
  · obtain ⟨n, d, ch, h1, h2, h3⟩ := trip_act (urgent := urgent) hl hi hsafe hq.reach hq.out hq.held hr
    have hrd := hq.reach.trans h1.reachable
    have hoth : ∀ b, b ≠ a → S.Same b d.mem c.mem := fun b hb => act_others hl hr h3 hb
    have hhd : ∀ b, b ≠ a → S.held b d.mem = [] := fun b hb => by rw [hl.held_dep _ _ _ (hoth b hb)]; exact hq.held b
    have hud : ∀ b, b ≠ a → ¬ urgent b d.mem := fun b hb h => hq.calm b (he.dep _ _ _ (hoth b hb) h)
    by_cases hh : S.held a d.mem = []
    · have hha : ∀ b, S.held b d.mem = [] := fun b => by
        by_cases hb : b = a
        · subst hb; exact hh
        · exact hhd b hb
      by_cases hu : urgent a d.mem
      · obtain ⟨n', e, ch', k1, k2, k3⟩ := trip_act (urgent := urgent) hl hi hsafe hrd h2 hha (he.rest _ _ hu)
        obtain ⟨u1, u2⟩ := he.act a ch' _ _ hu k3
        have hoth' : ∀ b, b ≠ a → S.Same b e.mem d.mem := fun b hb => act_others hl (he.rest _ _ hu) k3 hb
        refine ⟨n + 1 + n', e, h1.trans k1, hrd.trans k1.reachable, k2, fun b => ?_, fun b hb => ?_⟩
        · by_cases hb : b = a
          · subst hb; exact u2
          · rw [hl.held_dep _ _ _ (hoth' b hb)]; exact hhd b hb
        · by_cases hba : b = a
          · subst hba; exact u1 hb
          · exact hud b hba (he.dep _ _ _ (hoth' b hba) hb)
      · refine ⟨n, d, h1, hrd, h2, hha, fun b hb => ?_⟩
        by_cases hba : b = a
        · subst hba; exact hu hb
        · exact hud b hba hb
    · have hrest := hsh.rests a _ hh
      have hu : ∀ b, ¬ urgent b d.mem := fun b hb => by
        by_cases hba : b = a
        · subst hba; exact he.rest _ _ hb hrest
        · exact hud b hba hb
      obtain ⟨s, hs⟩ := hl.busy a _ hh hrest
      obtain ⟨n', e, k1, k2, rfl⟩ := trip_sync (urgent := urgent) h2 hu hs
      exact ⟨n + 1 + n', e, h1.trans k1, afterSync hs (hrd.trans k1.reachable) k2 hhd hu⟩

end

/-- Where the scheduler is: the number of the next turn, the steps that the current agent still has to make. -/
structure Sched (A L X : Type) (V : X → Type) where
  turn : Nat
  todo : Nat
  agent : Option A
  conf : Config A L X V

section

variable {agents : List A} {c₀ : Config A L X V}

/-- The scheduler gets to a quiet state. -/
def Sched.Good (S : System A L X C V) (urgent : A → ((x : X) → V x) → Prop) (c₀ : Config A L X V) (s : Sched A L X V) : Prop :=
  (s.todo = 0 ∧ Quiet S urgent c₀ s.conf) ∨ ∃ a e, s.agent = some a ∧ Trip S urgent a s.todo s.conf e ∧ Quiet S urgent c₀ e

/-- A step of the scheduler. -/
structure Sched.Next (S : System A L X C V) (sleeper : A → Prop) (urgent : A → ((x : X) → V x) → Prop) (agents : List A)
    (c₀ : Config A L X V) (s : Sched A L X V) (o : Option A) (s' : Sched A L X V) : Prop where
  step : ∀ b, o = some b → Calm S urgent s.conf b ∧ Step S b s.conf s'.conf
  idle : o = none → s'.conf = s.conf
  fresh : s.todo = 0 → s'.turn = s.turn + 1 ∧ Quiet S urgent c₀ s.conf ∧
    ∀ b, agents[s.turn % agents.length]? = some b → Able S sleeper s.conf b → o = some b
  going : s.todo ≠ 0 → s'.turn = s.turn ∧ s'.todo < s.todo
  good : s'.Good S urgent c₀

theorem Sched.Good.next (hl : Laws S rank top) (he : Eager S sleeper urgent) (hsh : Short S agents)
    (hi : Inv S c₀) (hsafe : ∀ c, Reachable S c₀ c → ¬ Fails S c) {s : Sched A L X V} (h : s.Good S urgent c₀) :
    ∃ o s', s.Next S sleeper urgent agents c₀ o s' := by
  obtain ⟨t, n, ag, c⟩ := s
  cases n with
  | succ n =>
    rcases h with ⟨h, _⟩ | ⟨a, e, h1, h2, h3⟩
    · cases h
    · cases h2 with
      | @cons _ d _ _ k1 k2 k3 =>
        exact ⟨some a, ⟨t, n, some a, d⟩, fun b hb => (by cases hb; exact ⟨k1, k2⟩), fun h => (by cases h), fun h => (by cases h),
          fun _ => ⟨rfl, Nat.lt_succ_self n⟩, Or.inr ⟨a, e, rfl, k3, h3⟩⟩
  | zero =>
    have hq : Quiet S urgent c₀ c := by
      rcases h with ⟨_, h⟩ | ⟨a, e, _, h2, h3⟩
      · exact h
      · cases h2
        exact h3
    by_cases hb : ∃ b, agents[t % agents.length]? = some b ∧ Able S sleeper c b
    · obtain ⟨b, h1, ⟨c', h2⟩, _⟩ := hb
      have h4 : ¬ S.rest b c.mem ∨ ∃ s, S.sync b c.mem s := by
        have ho := hq.out b
        cases h2 with
        | enter reg h hr hp => exact Or.inl hr
        | sync m reg h hs => exact Or.inr ⟨m, hs⟩
        | acquire k reg l h _ _ => rw [h] at ho; cases ho
        | read k reg x h _ => rw [h] at ho; cases ho
        | compute k reg s ch h _ _ => rw [h] at ho; cases ho
        | write ws reg ls x h _ => rw [h] at ho; cases ho
        | release reg l ls h => rw [h] at ho; cases ho
        | exit reg h => rw [h] at ho; cases ho
      obtain ⟨n, e, k1, k2⟩ := hq.trip hl he hsh hi hsafe h4
      cases k1 with
      | @cons _ d _ _ j1 j2 j3 =>
        exact ⟨some b, ⟨t + 1, n, some b, d⟩, fun b' hb => (by cases hb; exact ⟨j1, j2⟩), fun h => (by cases h),
          fun _ => ⟨rfl, hq, fun b' hb' _ => by rw [h1] at hb'; exact hb'⟩, fun h => absurd rfl h, Or.inr ⟨b, e, rfl, j3, k2⟩⟩
    · exact ⟨none, ⟨t + 1, 0, none, c⟩, fun b hb => (by cases hb), fun _ => rfl,
        fun _ => ⟨rfl, hq, fun b h1 h2 => absurd ⟨b, h1, h2⟩ hb⟩, fun h => absurd rfl h, Or.inl ⟨rfl, hq⟩⟩

theorem Eager.stays (hl : Laws S rank top) (he : Eager S sleeper urgent) {c c' : Config A L X V} (hi : Inv S c) {a b : A}
    (hb : b ≠ a) (ha : ¬ sleeper a) (hs : ∃ s, S.sync a c.mem s) (h : Step S b c c') : ∃ s, S.sync a c'.mem s := by
  cases h with
  | compute k reg s ch h hk hs' =>
    refine he.stays_act a b _ _ hb ha hs (hi.awake _ _ _ h) fun x d hx hd => if_neg ?_
    rw [hx]
    simpa using hd
  | write ws reg ls x h hx =>
    obtain ⟨l, hg, _⟩ := hi.write_owned h hx
    obtain ⟨s, hs⟩ := hs
    classical
    have hp : ∀ y d, S.guard y = .inr d → Function.update c.mem x (reg x) y = c.mem y := fun y d hy =>
      Function.update_of_ne (by rintro rfl; rw [hg] at hy; cases hy) _ _
    refine ⟨fun y => if ∃ d, S.guard y = .inr d then s y else Function.update c.mem x (reg x) y,
      hl.sync_frame a c.mem _ s _ hs (fun y d hy => (hp y d hy).symm) (fun y d hy => if_pos ⟨d, hy⟩) fun y l hy => if_neg ?_⟩
    rw [hy]
    simp
  | sync m reg h hs' => exact he.stays_sync a b _ _ hb ha hs hs'
  | _ => exact hs

/-- There is a fair execution in which no notification is lost. -/
theorem exists_fair (hl : Laws S rank top) (he : Eager S sleeper urgent) (hsl : Sleepers S sleeper) (hsh : Short S agents)
    (hi : Inv S c₀) (hsafe : ∀ c, Reachable S c₀ c → ¬ Fails S c) (ho : ∀ a, c₀.prog a = .out)
    (hh : ∀ a, S.held a c₀.mem = []) (hu : ∀ a, ¬ urgent a c₀.mem) :
    ∃ σ who, Fair S sleeper c₀ σ who ∧ ∀ n a, who n = some a → Calm S urgent (σ n) a := by
  have hnext : ∀ s : {s : Sched A L X V // s.Good S urgent c₀}, ∃ o s', s.1.Next S sleeper urgent agents c₀ o s' := fun s =>
    s.2.next hl he hsh hi hsafe
  choose out nxt hnxt using hnext
  let s₀ : {s : Sched A L X V // s.Good S urgent c₀} := ⟨⟨0, 0, none, c₀⟩, Or.inl ⟨rfl, .refl, ho, hh, hu⟩⟩
  let seq : Nat → {s : Sched A L X V // s.Good S urgent c₀} := fun n => Nat.rec s₀ (fun _ s => ⟨nxt s, (hnxt s).good⟩) n
  have hseq : ∀ n, (seq n).1.Next S sleeper urgent agents c₀ (out (seq n)) (seq (n + 1)).1 := fun n => hnxt (seq n)
  set σ : Nat → Config A L X V := fun n => (seq n).1.conf with hσ
  set who : Nat → Option A := fun n => out (seq n) with hwho
  have hstep : ∀ n a, who n = some a → Step S a (σ n) (σ (n + 1)) := fun n a h => ((hseq n).step a h).2
  have hidle : ∀ n, who n = none → σ (n + 1) = σ n := fun n h => (hseq n).idle h
  have hreach : ∀ n, Reachable S c₀ (σ n) := by
    intro n
    induction n with
    | zero => exact .refl
    | succ n ih =>
      cases hw : who n with
      | none => rw [hidle n hw]; exact ih
      | some a => exact .step a ih (hstep n a hw)
  have hdrain : ∀ k n, (seq n).1.todo ≤ k → ∃ m, n ≤ m ∧ (seq m).1.todo = 0 ∧ (seq m).1.turn = (seq n).1.turn := by
    intro k
    induction k with
    | zero => exact fun n hn => ⟨n, le_rfl, by omega, rfl⟩
    | succ k ih =>
      intro n hn
      by_cases h0 : (seq n).1.todo = 0
      · exact ⟨n, le_rfl, h0, rfl⟩
      · obtain ⟨h1, h2⟩ := (hseq n).going h0
        obtain ⟨m, h3, h4, h5⟩ := ih (n + 1) (by omega)
        exact ⟨m, by omega, h4, h5.trans h1⟩
  have hturn : ∀ j, ∃ n, j ≤ n ∧ (seq n).1.todo = 0 ∧ (seq n).1.turn = j := by
    intro j
    induction j with
    | zero => exact ⟨0, le_rfl, rfl, rfl⟩
    | succ j ih =>
      obtain ⟨n, h1, h2, h3⟩ := ih
      obtain ⟨h4, _⟩ := (hseq n).fresh h2
      obtain ⟨m, h5, h6, h7⟩ := hdrain _ (n + 1) le_rfl
      exact ⟨m, by omega, h6, by rw [h7, h4, h3]⟩
  refine ⟨σ, who, ⟨rfl, hstep, fun n h => Or.inr (hidle n h), fun a hab n => ?_⟩, fun n a h => ((hseq n).step a h).1⟩
  by_contra hcon
  have hno : ∀ m, n ≤ m → who m ≠ some a := fun m hm hw => hcon ⟨m, hm, hw⟩
  obtain ⟨q, hq1, hq2, -⟩ := hturn n
  have hquiet := ((hseq q).fresh hq2).2.1
  have hout : ∀ m, q ≤ m → (σ m).prog a = .out := by
    intro m hm
    induction m, hm using Nat.le_induction with
    | base => exact hquiet.out a
    | succ m hm ih =>
      rw [← ih]
      cases hw : who m with
      | none => rw [hidle m hw]
      | some b => exact step_prog (hstep m b hw) (by rintro rfl; exact hno m (by omega) hw)
  obtain ⟨m, hm, ⟨c', hs⟩, hsl'⟩ := hab q
  have hcan : ¬ S.rest a (σ m).mem ∨ (¬ sleeper a ∧ ∃ s, S.sync a (σ m).mem s) := by
    have ho := hout m hm
    cases hs with
    | enter reg h hr hp => exact Or.inl hr
    | sync k reg h hs => exact Or.inr ⟨fun h' => hsl' h' ho (hsl.rests _ _ _ hs), k, hs⟩
    | acquire k reg l h _ _ => rw [h] at ho; cases ho
    | read k reg x h _ => rw [h] at ho; cases ho
    | compute k reg s ch h _ _ => rw [h] at ho; cases ho
    | write ws reg ls x h _ => rw [h] at ho; cases ho
    | release reg l ls h => rw [h] at ho; cases ho
    | exit reg h => rw [h] at ho; cases ho
  have hcan' : ∀ k, m ≤ k → ¬ S.rest a (σ k).mem ∨ (¬ sleeper a ∧ ∃ s, S.sync a (σ k).mem s) := by
    intro k hk
    induction k, hk using Nat.le_induction with
    | base => exact hcan
    | succ k hk ih =>
      cases hw : who k with
      | none => rw [hidle k hw]; exact ih
      | some b =>
        have hb : b ≠ a := by rintro rfl; exact hno k (by omega) hw
        have hik := hi.reachable hl (hreach k)
        by_cases hr : S.rest a (σ k).mem
        · obtain ⟨h1, h2⟩ := ih.resolve_left fun h => h hr
          exact Or.inr ⟨h1, he.stays hl hik hb h1 h2 (hstep k b hw)⟩
        · have := hik.step_same hl (Ne.symm hb) (hstep k b hw) hr
          exact Or.inl fun h => hr (hl.rest_dep _ _ _ this h)
  have hag : a ∈ agents := by
    by_contra hna
    obtain ⟨h1, h2⟩ := hsh.absent a hna (σ m).mem
    rcases hcan with h | ⟨_, h⟩
    · exact h h1
    · exact h2 h
  obtain ⟨i, hi', hia⟩ := List.mem_iff_getElem.1 hag
  obtain ⟨k, hk, hk0, hkt⟩ := hturn (m * agents.length + i)
  have hmk : m ≤ k := by
    have : m ≤ m * agents.length := Nat.le_mul_of_pos_right m (by omega)
    omega
  refine hno k (by omega) (((hseq k).fresh hk0).2.2 a ?_ ?_)
  · rw [hkt, Nat.add_comm, Nat.add_mul_mod_self_right, Nat.mod_eq_of_lt hi', List.getElem?_eq_getElem hi', hia]
  · have ho := hout k (by omega)
    by_cases hr : S.rest a (σ k).mem
    · obtain ⟨h1, s, h2⟩ := (hcan' k hmk).resolve_left fun h => h hr
      exact ⟨⟨_, .sync _ s s ho h2⟩, fun h => absurd h h1⟩
    · exact ⟨⟨_, .enter _ (σ k).mem ho hr fun _ _ => rfl⟩, fun _ _ => hr⟩

end

end Locks
end Hycu
