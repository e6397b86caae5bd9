import Verif.Lemmas.OpenCLRace
import Verif.Spec.OpenCLCalls

/-!
Simulation of the machine in which calls of OpenCL may fail by the one in which they do not.
-/

namespace Hycu
namespace Calls

open Function
open OpenCL (Addr Buf Kernel Cmd Event Heap Bufs Op Now kernelFor Careful counts check)

section
variable {junk : Buf → Nat → Nat} {z : Now} {H : Heap} {B : Bufs} {Q : List Cmd} {O : List (List Nat)} {r : List Op}

theorem c_alloc {a : Addr} {v : List Nat} (h : OpenCL.Inv junk z ⟨H, B, Q, .alloc a v :: r, O⟩) :
    H a = none ∧ OpenCL.Inv junk z ⟨update H a (some v), B, Q, r, O⟩ := by
  have hp : OpenCL.Prompt ⟨H, B, Q, .alloc a v :: r, O⟩ .host := by intro r' h'; cases h'
  rcases OpenCL.inv_host h hp with ⟨h1, _⟩ | ⟨s', h1, h2, _⟩
  · simp only [OpenCL.host] at h1
    split at h1 <;> cases h1
  · simp only [OpenCL.host] at h1
    split at h1 <;> cases h1
    exact ⟨by simpa using ‹¬ (H a).isSome = true›, h2⟩

theorem c_free {a : Addr} (h : OpenCL.Inv junk z ⟨H, B, Q, .free a :: r, O⟩)
    (hp : a = .arg → ∀ b n, Cmd.write b .arg n ∉ Q) :
    (H a).isSome ∧ OpenCL.Inv junk z ⟨update H a none, B, Q, r, O⟩ := by
  have hp : OpenCL.Prompt ⟨H, B, Q, .free a :: r, O⟩ .host := by intro r' h'; cases h'; exact hp rfl
  rcases OpenCL.inv_host h hp with ⟨h1, _⟩ | ⟨s', h1, h2, _⟩
  · simp only [OpenCL.host] at h1
    split at h1 <;> cases h1
  · simp only [OpenCL.host] at h1
    split at h1 <;> cases h1
    exact ⟨by assumption, h2⟩

theorem c_create {b : Buf} {n : Nat} (h : OpenCL.Inv junk z ⟨H, B, Q, .create b n :: r, O⟩) :
    OpenCL.Inv junk z ⟨H, update B b (some ((List.range n).map (junk b))), Q, r, O⟩ := by
  have hp : OpenCL.Prompt ⟨H, B, Q, .create b n :: r, O⟩ .host := by intro r' h'; cases h'
  rcases OpenCL.inv_host h hp with ⟨h1, _⟩ | ⟨s', h1, h2, _⟩
  · simp only [OpenCL.host] at h1
    split at h1 <;> cases h1
  · simp only [OpenCL.host] at h1
    split at h1 <;> cases h1
    exact h2

theorem c_enqueue {c : Cmd} (h : OpenCL.Inv junk z ⟨H, B, Q, .enqueue c :: r, O⟩) :
    check B c = .ok () ∧ OpenCL.Inv junk z ⟨H, B, Q ++ [c], r, O⟩ := by
  have hp : OpenCL.Prompt ⟨H, B, Q, .enqueue c :: r, O⟩ .host := by intro r' h'; cases h'
  rcases OpenCL.inv_host h hp with ⟨h1, _⟩ | ⟨s', h1, h2, _⟩
  · simp only [OpenCL.host] at h1
    obtain ⟨_, _, h3⟩ := Res.bind_eq_ok.1 h1
    cases h3
  · simp only [OpenCL.host] at h1
    obtain ⟨_, h3, h4⟩ := Res.bind_eq_ok.1 h1
    cases h4
    exact ⟨h3, h2⟩

theorem c_read {b : Buf} {n : Nat} (h : OpenCL.Inv junk z ⟨H, B, [], .read b n :: r, O⟩) :
    ∃ v, B b = some v ∧ n ≤ v.length ∧ OpenCL.Inv junk z ⟨H, B, [], r, O ++ [v.take n]⟩ := by
  have hp : OpenCL.Prompt ⟨H, B, [], .read b n :: r, O⟩ .host := by intro r' h'; cases h'
  rcases OpenCL.inv_host h hp with ⟨_, h1⟩ | ⟨s', h1, h2, _⟩
  · rcases h1 with h1 | h1 <;> simp at h1
  · simp only [OpenCL.host] at h1
    obtain ⟨v, h3, h4⟩ := Res.bind_eq_ok.1 h1
    split at h4 <;> cases h4
    exact ⟨v, OpenCL.get_eq_ok.1 h3, by assumption, h2⟩

end

/-- What a call is in the machine without failures. -/
def abs (rts : Nat → ReductionTable) : Call → List Op
  | .alloc a v => [.alloc a v]
  | .free a => [.free a]
  | .make (.buffer b) n => [.create b n]
  | .make _ _ => []
  | .build _ => []
  | .set _ _ _ _ => []
  | .write b a n => [.enqueue (.write b a n)]
  | .run t d n => [.enqueue (.kernel (kernelFor (rts t) t d) (List.range n))]
  | .read b n => [.read b n]

/-- Calls that fail if an object is null. -/
def Uses : Call → Obj → Prop
  | .build o, o' => o' = o ∨ (o = .reduction ∧ o' = .context)
  | .set t d _ _, o => o = .kernel t d
  | .write b _ _, o => o = .queue ∨ o = .buffer b
  | .run t d _, o => o = .queue ∨ o = .kernel t d
  | .read b _, o => o = .queue ∨ o = .buffer b
  | _, _ => False

/-- Calls that run a kernel or read. -/
def Work : Call → Prop
  | .run _ _ _ => True
  | .read _ _ => True
  | _ => False

/-- An object is used before the next kernel is run or a buffer is read. -/
def Guard (o : Obj) : List Call → Prop
  | [] => True
  | c :: r => Uses c o ∨ (¬ Work c ∧ Guard o r)

/-- Calls in an order such that objects are made before they are used, and arguments are set before kernels are run. -/
def Fine (rts : Nat → ReductionTable) : (Obj → Prop) → Args → List Call → Prop
  | _, _, [] => True
  | made, args, .make o _ :: r =>
    (∀ o', o.needs = some o' → made o') ∧ ¬ made o ∧ (Result o ∨ Guard o r) ∧
    Fine rts (fun x => x = o ∨ made x) (newArgs args o) r
  | made, args, .build o :: r => made o ∧ Fine rts made args r
  | made, args, .set t d i v :: r =>
    made (.kernel t d) ∧ (∀ b, v = .buffer b → made (.buffer b)) ∧
    Fine rts made (update args t (update (args t) d (update (args t d) i (some v)))) r
  | made, args, .write b _ _ :: r => made .queue ∧ made (.buffer b) ∧ Fine rts made args r
  | made, args, .run t d _ :: r =>
    made .queue ∧ made (.kernel t d) ∧ kernelOf args t d = some (kernelFor (rts t) t d) ∧
    (made (.buffer (.coeffs t d)) ∧ made (.buffer (.ert t)) ∧ made (.buffer (.inc t)) ∧
      made (.buffer (.unramified t)) ∧ made (.buffer (.ramified t))) ∧ Fine rts made args r
  | made, args, .read b _ :: r => made .queue ∧ made (.buffer b) ∧ Fine rts made args r
  | made, args, _ :: r => Fine rts made args r

structure Inv (junk : Buf → Nat → Nat) (z : Now) (rts : Nat → ReductionTable) (s : State) : Prop where
  sim : ∃ B, OpenCL.Inv junk z ⟨s.base.heap, B, s.base.queue, s.todo.flatMap (abs rts), s.base.out⟩ ∧
    ∀ b, s.base.bufs b = if s.objs (.buffer b) = some true then B b else none
  fine : Fine rts (fun o => (s.objs o).isSome) s.args s.todo
  guard : ∀ o, s.objs o = some false → Result o ∨ Guard o s.todo
  context : s.objs .reduction = some true → s.objs .context = some true
  writes : ∀ b a n, Cmd.write b a n ∈ s.base.queue → s.objs (.buffer b) = some true
  kernels : ∀ k items, Cmd.kernel k items ∈ s.base.queue → s.objs (.buffer k.coeffs) = some true ∧
    s.objs (.buffer k.ert) = some true ∧ s.objs (.buffer k.inc) = some true ∧
    (s.objs (.buffer k.unramified)).isSome ∧ (s.objs (.buffer k.ramified)).isSome
  sep : ∀ k items, Cmd.kernel k items ∈ s.base.queue → ∃ t d, k = kernelFor (rts t) t d

theorem valid_some {objs : Obj → Option Bool} {o : Obj} (h : (objs o).isSome) :
    (objs o = some true ∧ valid objs o = .ok true) ∨ (objs o = some false ∧ valid objs o = .ok false) := by
  unfold valid
  rcases h1 : objs o with _ | _ | _
  · rw [h1] at h; cases h
  · exact .inr ⟨rfl, rfl⟩
  · exact .inl ⟨rfl, rfl⟩

theorem check_eq {objs : Obj → Option Bool} {bufs B : Bufs} (hb : ∀ b, bufs b = if objs (.buffer b) = some true then B b else none)
    {b : Buf} (h : objs (.buffer b) = some true) (a : Addr) (n : Nat) : check bufs (.write b a n) = check B (.write b a n) := by
  simp only [check, OpenCL.get, hb b, h, if_true]

theorem isSome_update {objs : Obj → Option Bool} {o : Obj} {v : Bool} :
    (fun x => ((update objs o (some v) x).isSome = true)) = fun x => x = o ∨ ((objs x).isSome = true) := by
  funext x
  by_cases hx : x = o
  · subst hx; simp
  · simp [hx]

theorem guard_next {objs : Obj → Option Bool} {c : Call} {r : List Call} (hu : ∀ o, objs o = some false → ¬ Uses c o)
    (h : ∀ o, objs o = some false → Result o ∨ Guard o (c :: r)) : ∀ o, objs o = some false → Result o ∨ Guard o r := by
  intro o ho
  rcases h o ho with h1 | h1 | ⟨_, h1⟩
  · exact .inl h1
  · exact absurd h1 (hu o ho)
  · exact .inr h1

/-- The status of the next step of the host. -/
def Outcome (junk : Buf → Nat → Nat) (z : Now) (rts : Nat → ReductionTable) (fault : Bool) (s : State) : Prop :=
  (host junk fault s = .ok none ∧ (s.todo = [] ∨ ((∃ b n r, s.todo = .read b n :: r) ∧ s.base.queue ≠ [] ∧ fault = false))) ∨
  (host junk fault s = .abort ∧ ∃ c r, s.todo = c :: r ∧
    ((fault = true ∧ Checked c) ∨ ∃ o, Uses c o ∧ s.objs o = some false)) ∨
  ∃ s' c r, host junk fault s = .ok (some s') ∧ s.todo = c :: r ∧ s'.todo = r ∧ Inv junk z rts s' ∧
    (∀ o, s.objs o = some false → ¬ Uses c o) ∧ (fault = true → ¬ Checked c) ∧
    (∀ o v, s.objs o = some v → s'.objs o = some v) ∧
    (∀ o, s'.objs o = some false → s.objs o = some false ∨
      ∃ n, c = .make o n ∧ (fault = true ∨ ∃ o', o.needs = some o' ∧ s.objs o' = some false)) ∧
    ((¬ ∃ b n, c = .read b n) → s'.base.out = s.base.out) ∧
    (fault = true → ∀ o n, c = .make o n → s'.objs o = some false) ∧
    ∃ q, s'.base.queue = s.base.queue ++ q ∧ ∀ t d n, c = .run t d n → q = [.kernel (kernelFor (rts t) t d) (List.range n)]

theorem inv_host {junk : Buf → Nat → Nat} {z : Now} {rts : Nat → ReductionTable} {s : State} (h : Inv junk z rts s)
    {fault : Bool} (hp : Prompt s (.host fault)) : Outcome junk z rts fault s := by
  obtain ⟨⟨B, hi, hb⟩, hf, hg, hc, hw, hk, hs⟩ := h
  obtain ⟨⟨H, bufs, Q, T, O⟩, objs, args, todo⟩ := s
  simp only at hi hb hf hg hc hw hk hs
  unfold Outcome
  cases todo with
  | nil => exact .inl ⟨rfl, .inl rfl⟩
  | cons c r =>
    cases c with
    | alloc a v =>
      obtain ⟨h1, h2⟩ := c_alloc (r := r.flatMap (abs rts)) hi
      have hu : ∀ o, objs o = some false → ¬ Uses (.alloc a v) o := fun _ _ => id
      refine .inr (.inr ⟨⟨⟨update H a (some v), bufs, Q, T, O⟩, objs, args, r⟩, _, r, by simp only [host, h1]; rfl, rfl, rfl, ?_, hu, fun _ => id, fun _ _ => id,
        fun _ h => .inl h, fun _ => rfl, nofun, [], (List.append_nil _).symm, nofun⟩)
      exact ⟨⟨B, h2, hb⟩, hf, guard_next hu hg, hc, hw, hk, hs⟩
    | free a =>
      obtain ⟨h1, h2⟩ := c_free (r := r.flatMap (abs rts)) hi (by rintro rfl; exact hp r rfl)
      have hu : ∀ o, objs o = some false → ¬ Uses (.free a) o := fun _ _ => id
      refine .inr (.inr ⟨⟨⟨update H a none, bufs, Q, T, O⟩, objs, args, r⟩, _, r, by simp only [host, h1]; rfl, rfl, rfl, ?_, hu, fun _ => id, fun _ _ => id,
        fun _ h => .inl h, fun _ => rfl, nofun, [], (List.append_nil _).symm, nofun⟩)
      exact ⟨⟨B, h2, hb⟩, hf, guard_next hu hg, hc, hw, hk, hs⟩
    | make o n =>
      obtain ⟨hn, hm, hg', hf'⟩ : (∀ o', o.needs = some o' → (objs o').isSome) ∧ ¬ (objs o).isSome ∧
        (Result o ∨ Guard o r) ∧ Fine rts (fun x => x = o ∨ (objs x).isSome) (newArgs args o) r := hf
      have hnone : objs o = none := by simpa using hm
      have hu : ∀ o', objs o' = some false → ¬ Uses (.make o n) o' := fun _ _ => id
      have hkeep : ∀ (w : Bool) o' v, objs o' = some v → update objs o (some w) o' = some v := by
        intro w o' v h'
        rw [update_of_ne (by rintro rfl; rw [hnone] at h'; cases h')]
        exact h'
      obtain ⟨B', hi', hB'⟩ : ∃ B', OpenCL.Inv junk z ⟨H, B', Q, r.flatMap (abs rts), O⟩ ∧ B' = newBufs junk B n o := by
        cases o with
        | buffer b => exact ⟨_, c_create (r := r.flatMap (abs rts)) hi, rfl⟩
        | _ => exact ⟨_, hi, rfl⟩
      have hguard : ∀ (w : Bool) o', update objs o (some w) o' = some false → Result o' ∨ Guard o' r := by
        intro w o' h'
        by_cases ho : o' = o
        · subst ho; exact hg'
        · rw [update_of_ne ho] at h'
          exact guard_next hu hg o' h'
      have hnew : ∀ o', update objs o (some true) o' = some false → objs o' = some false := by
        intro o' h'
        by_cases ho : o' = o
        · subst ho; rw [update_self] at h'; cases h'
        · rwa [update_of_ne ho] at h'
      obtain ⟨v, hv, hv'⟩ : ∃ v, validNeeds objs o = .ok v ∧ (v = false → ∃ o', o.needs = some o' ∧ objs o' = some false) ∧
          (v = true → o = .reduction → objs .context = some true) := by
        unfold validNeeds
        rcases hneed : o.needs with _ | o'
        · refine ⟨true, rfl, nofun, ?_⟩
          rintro - rfl
          cases hneed
        · rcases valid_some (hn o' hneed) with ⟨h1, h2⟩ | ⟨h1, h2⟩
          · refine ⟨true, h2, nofun, ?_⟩
            rintro - rfl
            cases hneed
            exact h1
          · exact ⟨false, h2, fun _ => ⟨o', rfl, h1⟩, nofun⟩
      have hctx : ∀ w : Bool, (w = true → o = .reduction → objs .context = some true) →
          update objs o (some w) .reduction = some true → update objs o (some w) .context = some true := by
        intro w hw' h'
        by_cases ho : o = .reduction
        · subst ho
          rw [update_self] at h'
          exact hkeep w _ _ (hw' (Option.some.inj h') rfl)
        · rw [update_of_ne (Ne.symm ho)] at h'
          exact hkeep w _ _ (hc h')
      by_cases hok : (v && !fault) = true
      · refine .inr (.inr ⟨⟨⟨H, newBufs junk bufs n o, Q, T, O⟩, update objs o (some true), newArgs args o, r⟩, _, r, by
          simp only [host, makeStep, hv, Res.bind_ok, hnone, hok]; rfl, rfl, rfl, ?_, hu, fun _ => id,
          hkeep true, fun o' h' => .inl (hnew o' h'), fun _ => rfl, ?_, [], (List.append_nil _).symm, nofun⟩)
        · refine ⟨⟨B', hi', ?_⟩, ?_, hguard true, hctx true fun _ => hv'.2 (by cases v <;> simp_all), ?_, ?_, hs⟩
          · intro b
            subst hB'
            cases o with
            | buffer b' =>
              by_cases hbb : b = b'
              · subst hbb
                simp [newBufs]
              · have : Obj.buffer b ≠ Obj.buffer b' := fun h => hbb (by cases h; rfl)
                simp only [newBufs, update_of_ne hbb, update_of_ne this]
                exact hb b
            | _ =>
              simp only [newBufs, ne_eq, reduceCtorEq, not_false_eq_true, update_of_ne]
              exact hb b
          · show Fine rts (fun x => ((update objs o (some true) x).isSome = true)) _ _
            rw [isSome_update]; exact hf'
          · intro b a n' hmem; exact hkeep _ _ _ (hw b a n' hmem)
          · intro k items hmem
            obtain ⟨k1, k2, k3, k4, k5⟩ := hk k items hmem
            obtain ⟨w1, k4⟩ := Option.isSome_iff_exists.1 k4
            obtain ⟨w2, k5⟩ := Option.isSome_iff_exists.1 k5
            exact ⟨hkeep _ _ _ k1, hkeep _ _ _ k2, hkeep _ _ _ k3, Option.isSome_iff_exists.2 ⟨_, hkeep _ _ _ k4⟩,
              Option.isSome_iff_exists.2 ⟨_, hkeep _ _ _ k5⟩⟩
        · rintro rfl
          simp at hok
      · have hok' : (v && !fault) = false := by simpa using hok
        refine .inr (.inr ⟨⟨⟨H, bufs, Q, T, O⟩, update objs o (some false), newArgs args o, r⟩, _, r, by
          simp only [host, makeStep, hv, Res.bind_ok, hnone, hok']; rfl, rfl, rfl, ?_, hu, fun _ => id,
          hkeep false, fun o' h' => ?_, fun _ => rfl, ?_, [], (List.append_nil _).symm, nofun⟩)
        · refine ⟨⟨B', hi', ?_⟩, ?_, hguard false, hctx false nofun, ?_, ?_, hs⟩
          · intro b
            subst hB'
            cases o with
            | buffer b' =>
              by_cases hbb : b = b'
              · subst hbb
                show bufs b = _
                rw [hb b]
                simp [hnone]
              · have : Obj.buffer b ≠ Obj.buffer b' := fun h => hbb (by cases h; rfl)
                simp only [newBufs, update_of_ne hbb, update_of_ne this]
                exact hb b
            | _ =>
              simp only [newBufs, ne_eq, reduceCtorEq, not_false_eq_true, update_of_ne]
              exact hb b
          · show Fine rts (fun x => ((update objs o (some false) x).isSome = true)) _ _
            rw [isSome_update]; exact hf'
          · intro b a n' hmem; exact hkeep _ _ _ (hw b a n' hmem)
          · intro k items hmem
            obtain ⟨k1, k2, k3, k4, k5⟩ := hk k items hmem
            obtain ⟨w1, k4⟩ := Option.isSome_iff_exists.1 k4
            obtain ⟨w2, k5⟩ := Option.isSome_iff_exists.1 k5
            exact ⟨hkeep _ _ _ k1, hkeep _ _ _ k2, hkeep _ _ _ k3, Option.isSome_iff_exists.2 ⟨_, hkeep _ _ _ k4⟩,
              Option.isSome_iff_exists.2 ⟨_, hkeep _ _ _ k5⟩⟩
        · by_cases ho : o' = o
          · subst ho
            refine .inr ⟨n, rfl, ?_⟩
            cases fault
            · exact .inr (hv'.1 (by simpa using hok'))
            · exact .inl rfl
          · have h2 : update objs o (some false) o' = some false := h'
            rw [update_of_ne ho] at h2
            exact .inl h2
        · rintro rfl o' n' h'
          cases h'
          exact update_self ..
    | build o =>
      have hf' : (objs o).isSome ∧ Fine rts (fun o => (objs o).isSome) args r := hf
      obtain ⟨h1, hf'⟩ := hf'
      rcases valid_some h1 with ⟨h2, h3⟩ | ⟨h2, h3⟩
      · cases fault
        · have hu : ∀ o', objs o' = some false → ¬ Uses (.build o) o' := by
            intro o' ho' hu
            rcases hu with rfl | ⟨rfl, rfl⟩
            · rw [h2] at ho'; cases ho'
            · rw [hc h2] at ho'; cases ho'
          refine .inr (.inr ⟨⟨⟨H, bufs, Q, T, O⟩, objs, args, r⟩, _, r, by simp only [host, h3]; rfl, rfl, rfl, ?_, hu, nofun, fun _ _ => id,
            fun _ h => .inl h, fun _ => rfl, nofun, [], (List.append_nil _).symm, nofun⟩)
          exact ⟨⟨B, hi, hb⟩, hf', guard_next hu hg, hc, hw, hk, hs⟩
        · exact .inr (.inl ⟨by simp only [host, h3]; rfl, _, r, rfl, .inl ⟨rfl, trivial⟩⟩)
      · exact .inr (.inl ⟨by simp only [host, h3]; rfl, _, r, rfl, .inr ⟨o, .inl rfl, h2⟩⟩)
    | set t d i v =>
      obtain ⟨h1, hv, hf'⟩ : (objs (.kernel t d)).isSome ∧ (∀ b, v = .buffer b → (objs (.buffer b)).isSome) ∧
        Fine rts (fun o => (objs o).isSome) (update args t (update (args t) d (update (args t d) i (some v)))) r := hf
      obtain ⟨w, hv⟩ : ∃ w, validArg objs v = .ok w := by
        cases v with
        | value n => exact ⟨_, rfl⟩
        | buffer b =>
          rcases valid_some (hv b rfl) with ⟨_, h⟩ | ⟨_, h⟩
          · exact ⟨_, h⟩
          · exact ⟨_, h⟩
      rcases valid_some h1 with ⟨h2, h3⟩ | ⟨h2, h3⟩
      · cases fault
        · have hu : ∀ o', objs o' = some false → ¬ Uses (.set t d i v) o' := by
            intro o' ho' hu
            obtain rfl : o' = _ := hu
            rw [h2] at ho'; cases ho'
          refine .inr (.inr ⟨⟨⟨H, bufs, Q, T, O⟩, objs, update args t (update (args t) d (update (args t d) i (some v))), r⟩, _, r, by simp only [host, setStep, h3, hv, Res.bind_ok]; rfl, rfl, rfl, ?_, hu, nofun,
            fun _ _ => id, fun _ h => .inl h, fun _ => rfl, nofun, [], (List.append_nil _).symm, nofun⟩)
          exact ⟨⟨B, hi, hb⟩, hf', guard_next hu hg, hc, hw, hk, hs⟩
        · exact .inr (.inl ⟨by simp only [host, setStep, h3, hv, Res.bind_ok]; rfl, _, r, rfl, .inl ⟨rfl, trivial⟩⟩)
      · exact .inr (.inl ⟨by simp only [host, setStep, h3, hv, Res.bind_ok]; rfl, _, r, rfl, .inr ⟨_, rfl, h2⟩⟩)
    | write b a n =>
      obtain ⟨h1, h1', hf'⟩ : (objs .queue).isSome ∧ (objs (.buffer b)).isSome ∧ Fine rts (fun o => (objs o).isSome) args r :=
        hf
      obtain ⟨e1, e2⟩ := c_enqueue (r := r.flatMap (abs rts)) hi
      rcases valid_some h1 with ⟨h2, h3⟩ | ⟨h2, h3⟩
      · rcases valid_some h1' with ⟨h4, h5⟩ | ⟨h4, h5⟩
        · cases fault
          · have hu : ∀ o', objs o' = some false → ¬ Uses (.write b a n) o' := by
              intro o' ho' hu
              rcases hu with rfl | rfl
              · rw [h2] at ho'; cases ho'
              · rw [h4] at ho'; cases ho'
            have hck : check bufs (.write b a n) = .ok () := by rw [check_eq hb h4]; exact e1
            refine .inr (.inr ⟨⟨⟨H, bufs, Q ++ [.write b a n], T, O⟩, objs, args, r⟩, _, r, by simp only [host, writeStep, h3, h5, Res.bind_ok, hck]; rfl, rfl, rfl, ?_, hu,
              nofun, fun _ _ => id, fun _ h => .inl h, fun _ => rfl, nofun, _, rfl, nofun⟩)
            refine ⟨⟨B, e2, hb⟩, hf', guard_next hu hg, hc, ?_, ?_, ?_⟩
            · intro b' a' n' hm
              rcases List.mem_append.1 hm with hm | hm
              · exact hw b' a' n' hm
              · cases List.mem_singleton.1 hm; exact h4
            · intro k items hm
              rcases List.mem_append.1 hm with hm | hm
              · exact hk k items hm
              · cases List.mem_singleton.1 hm
            · intro k items hm
              rcases List.mem_append.1 hm with hm | hm
              · exact hs k items hm
              · cases List.mem_singleton.1 hm
          · exact .inr (.inl ⟨by simp only [host, writeStep, h3, h5, Res.bind_ok]; rfl, _, r, rfl, .inl ⟨rfl, trivial⟩⟩)
        · exact .inr (.inl ⟨by simp only [host, writeStep, h3, h5, Res.bind_ok]; rfl, _, r, rfl, .inr ⟨_, .inr rfl, h4⟩⟩)
      · rcases valid_some h1' with ⟨h4, h5⟩ | ⟨h4, h5⟩ <;>
          exact .inr (.inl ⟨by simp only [host, writeStep, h3, h5, Res.bind_ok]; rfl, _, r, rfl, .inr ⟨_, .inl rfl, h2⟩⟩)
    | run t d n =>
      obtain ⟨h1, h1', hkk, ⟨m1, m2, m3, m4, m5⟩, hf'⟩ : (objs .queue).isSome ∧ (objs (.kernel t d)).isSome ∧
        kernelOf args t d = some (kernelFor (rts t) t d) ∧ ((objs (.buffer (.coeffs t d))).isSome ∧
        (objs (.buffer (.ert t))).isSome ∧ (objs (.buffer (.inc t))).isSome ∧
        (objs (.buffer (.unramified t))).isSome ∧ (objs (.buffer (.ramified t))).isSome) ∧
        Fine rts (fun o => (objs o).isSome) args r := hf
      obtain ⟨e1, e2⟩ := c_enqueue (r := r.flatMap (abs rts)) hi
      have hnn : ∀ b, ¬ Result (.buffer b) → (objs (.buffer b)).isSome → objs (.buffer b) = some true := by
        intro b hb1 hb2
        rcases valid_some hb2 with ⟨h, _⟩ | ⟨h, _⟩
        · exact h
        · rcases hg _ h with h | (h | h) | h
          · exact absurd h hb1
          · cases h
          · cases h
          · exact absurd trivial h.1
      rcases valid_some h1 with ⟨h2, h3⟩ | ⟨h2, h3⟩
      · rcases valid_some h1' with ⟨h4, h5⟩ | ⟨h4, h5⟩
        · cases fault
          · have hu : ∀ o', objs o' = some false → ¬ Uses (.run t d n) o' := by
              intro o' ho' hu
              rcases hu with rfl | rfl
              · rw [h2] at ho'; cases ho'
              · rw [h4] at ho'; cases ho'
            refine .inr (.inr ⟨⟨⟨H, bufs, Q ++ [.kernel (kernelFor (rts t) t d) (List.range n)], T, O⟩, objs, args, r⟩, _, r, by simp only [host, runStep, h3, h5, Res.bind_ok, hkk]; rfl, rfl, rfl, ?_, hu,
              nofun, fun _ _ => id, fun _ h => .inl h, fun _ => rfl, nofun, _, rfl, by
                intro t' d' n' h'; cases h'; rfl⟩)
            refine ⟨⟨B, e2, hb⟩, hf', guard_next hu hg, hc, ?_, ?_, ?_⟩
            · intro b' a' n' hm
              rcases List.mem_append.1 hm with hm | hm
              · exact hw b' a' n' hm
              · cases List.mem_singleton.1 hm
            · intro k items hm
              rcases List.mem_append.1 hm with hm | hm
              · exact hk k items hm
              · cases List.mem_singleton.1 hm
                exact ⟨hnn _ id m1, hnn _ id m2, hnn _ id m3, m4, m5⟩
            · intro k items hm
              rcases List.mem_append.1 hm with hm | hm
              · exact hs k items hm
              · cases List.mem_singleton.1 hm
                exact ⟨t, d, rfl⟩
          · exact .inr (.inl ⟨by simp only [host, runStep, h3, h5, Res.bind_ok]; rfl, _, r, rfl, .inl ⟨rfl, trivial⟩⟩)
        · exact .inr (.inl ⟨by simp only [host, runStep, h3, h5, Res.bind_ok]; rfl, _, r, rfl, .inr ⟨_, .inr rfl, h4⟩⟩)
      · rcases valid_some h1' with ⟨h4, h5⟩ | ⟨h4, h5⟩ <;>
          exact .inr (.inl ⟨by simp only [host, runStep, h3, h5, Res.bind_ok]; rfl, _, r, rfl, .inr ⟨_, .inl rfl, h2⟩⟩)
    | read b n =>
      obtain ⟨h1, h1', hf'⟩ : (objs .queue).isSome ∧ (objs (.buffer b)).isSome ∧ Fine rts (fun o => (objs o).isSome) args r :=
        hf
      rcases valid_some h1 with ⟨h2, h3⟩ | ⟨h2, h3⟩
      · rcases valid_some h1' with ⟨h4, h5⟩ | ⟨h4, h5⟩
        · cases fault
          · cases Q with
            | cons q Q =>
              exact .inl ⟨by simp only [host, readStep, h3, h5, Res.bind_ok]; rfl, .inr ⟨⟨b, n, r, rfl⟩, nofun, rfl⟩⟩
            | nil =>
              obtain ⟨v, e1, e2, e3⟩ := c_read (r := r.flatMap (abs rts)) hi
              have hu : ∀ o', objs o' = some false → ¬ Uses (.read b n) o' := by
                intro o' ho' hu
                rcases hu with rfl | rfl
                · rw [h2] at ho'; cases ho'
                · rw [h4] at ho'; cases ho'
              have hget : OpenCL.get bufs b = .ok v := by
                rw [OpenCL.get_eq_ok, hb b, if_pos h4, e1]
              refine .inr (.inr ⟨{ base := ⟨H, bufs, [], T, O ++ [v.take n]⟩, objs := objs, args := args, todo := r }, _, r,
                by simp only [host, readStep, h3, h5, Res.bind_ok, hget]; simp [e2], rfl, rfl, ?_, hu, nofun,
                fun _ _ => id, fun _ h => .inl h, fun h => absurd ⟨b, n, rfl⟩ h, nofun, [], rfl, nofun⟩)
              exact ⟨⟨B, e3, hb⟩, hf', guard_next hu hg, hc, hw, hk, hs⟩
          · exact .inr (.inl ⟨by simp only [host, readStep, h3, h5, Res.bind_ok]; rfl, _, r, rfl, .inl ⟨rfl, trivial⟩⟩)
        · exact .inr (.inl ⟨by simp only [host, readStep, h3, h5, Res.bind_ok]; rfl, _, r, rfl, .inr ⟨_, .inr rfl, h4⟩⟩)
      · rcases valid_some h1' with ⟨h4, h5⟩ | ⟨h4, h5⟩ <;>
          exact .inr (.inl ⟨by simp only [host, readStep, h3, h5, Res.bind_ok]; rfl, _, r, rfl, .inr ⟨_, .inl rfl, h2⟩⟩)

/-- Work that the device has to do. -/
def load (s : State) : Nat := (s.base.queue.map Cmd.cost).sum

theorem inv_device {junk : Buf → Nat → Nat} {z : Now} {rts : Nat → ReductionTable} {s : State} (h : Inv junk z rts s)
    (i : Nat) : (device i s = .ok none ∧ (i = 0 → s.base.queue = [])) ∨
    (∃ s', device i s = .ok (some s') ∧ Inv junk z rts s' ∧ s'.todo = s.todo ∧ s'.objs = s.objs ∧
      s'.base.out = s.base.out ∧ load s' < load s) ∨
    (device i s = .ub ∧ ∃ k y ys q, s.base.queue = .kernel k (y :: ys) :: q ∧
      (s.objs (.buffer k.unramified) = some false ∨ s.objs (.buffer k.ramified) = some false)) := by
  obtain ⟨⟨B, hi, hb⟩, hf, hg, hc, hw, hk, hs⟩ := h
  obtain ⟨⟨H, bufs, Q, T, O⟩, objs, args, todo⟩ := s
  simp only at hi hb hf hg hc hw hk hs
  have hcoarse := OpenCL.inv_device hi i
  cases Q with
  | nil => exact .inl ⟨rfl, fun _ => rfl⟩
  | cons c q =>
    cases c with
    | write b a n =>
      have hbt := hw b a n List.mem_cons_self
      simp only [OpenCL.device] at hcoarse
      rcases hcoarse with ⟨h1, _⟩ | ⟨s', h1, h2, _⟩
      · obtain ⟨_, _, h3⟩ := Res.bind_eq_ok.1 h1
        cases h3
      · obtain ⟨B', h3, h4⟩ := Res.bind_eq_ok.1 h1
        cases h4
        obtain ⟨v, w, e1, e2, e3, rfl⟩ := OpenCL.transfer_eq_ok.1 h3
        have h5 : OpenCL.transfer H bufs b a n = .ok (update bufs b (some (v.take n ++ w.drop n))) :=
          OpenCL.transfer_eq_ok.2 ⟨v, w, e1, by rw [hb b, if_pos hbt]; exact e2, e3, rfl⟩
        refine .inr (.inl ⟨⟨⟨H, update bufs b (some (v.take n ++ w.drop n)), q, T, O⟩, objs, args, todo⟩, by
          simp only [device, OpenCL.device, h5, Res.bind_ok]; rfl, ?_, rfl, rfl, rfl, by simp [load, Cmd.cost]⟩)
        refine ⟨⟨_, h2, fun b' => ?_⟩, hf, hg, hc, fun b' a' n' hm => hw b' a' n' (List.mem_cons_of_mem _ hm),
          fun k' i' hm => hk k' i' (List.mem_cons_of_mem _ hm), fun k' i' hm => hs k' i' (List.mem_cons_of_mem _ hm)⟩
        by_cases hbb : b' = b
        · subst hbb; simp [hbt]
        · simp only [update_of_ne hbb]; exact hb b'
    | kernel k items =>
      cases items with
      | nil =>
        simp only [OpenCL.device] at hcoarse
        rcases hcoarse with ⟨h1, _⟩ | ⟨s', h1, h2, _⟩
        · cases h1
        · cases h1
          refine .inr (.inl ⟨⟨⟨H, bufs, q, T, O⟩, objs, args, todo⟩, rfl, ?_, rfl, rfl, rfl, by simp [load, Cmd.cost]⟩)
          exact ⟨⟨_, h2, hb⟩, hf, hg, hc, fun b' a' n' hm => hw b' a' n' (List.mem_cons_of_mem _ hm),
            fun k' i' hm => hk k' i' (List.mem_cons_of_mem _ hm), fun k' i' hm => hs k' i' (List.mem_cons_of_mem _ hm)⟩
      | cons y ys =>
        obtain ⟨k1, k2, k3, k4, k5⟩ := hk k _ List.mem_cons_self
        obtain ⟨t, d, hkk⟩ := hs k _ List.mem_cons_self
        have hsep : k.Sep := hkk ▸ OpenCL.kernelFor_sep _ _ _
        simp only [OpenCL.device] at hcoarse
        rcases hx : (y :: ys)[i]? with _ | x
        · refine .inl ⟨by simp only [device, OpenCL.device, hx]; rfl, ?_⟩
          rintro rfl
          simp at hx
        · rw [hx] at hcoarse
          rcases hcoarse with ⟨h1, _⟩ | ⟨s', h1, h2, _⟩
          · obtain ⟨_, _, h3⟩ := Res.bind_eq_ok.1 h1
            cases h3
          · obtain ⟨B', h3, h4⟩ := Res.bind_eq_ok.1 h1
            cases h4
            obtain ⟨f, u, r, e1, e2, e3, e4, e5, rfl⟩ := (OpenCL.item_eq_ok hsep).1 h3
            have hval : OpenCL.value k bufs x = .ok f := by
              rw [← e1]
              exact OpenCL.value_congr (by rw [hb, if_pos k1]) (by rw [hb, if_pos k2]) (by rw [hb, if_pos k3]) x
            by_cases hu : objs (.buffer k.unramified) = some true
            · by_cases hr : objs (.buffer k.ramified) = some true
              · have h5 := (OpenCL.item_eq_ok hsep (bufs := bufs)).2 ⟨f, u, r, hval, by rw [hb, if_pos hu]; exact e2,
                  by rw [hb, if_pos hr]; exact e3, e4, e5, rfl⟩
                refine .inr (.inl ⟨⟨⟨H, _, .kernel k ((y :: ys).eraseIdx i) :: q, T, O⟩, objs, args, todo⟩, by
                  simp only [device, OpenCL.device, hx, h5, Res.bind_ok]; rfl, ?_, rfl, rfl, rfl, ?_⟩)
                · refine ⟨⟨_, h2, fun b' => ?_⟩, hf, hg, hc, ?_, ?_, ?_⟩
                  · simp only
                    by_cases hbb : b' = k.ramified
                    · subst hbb; simp [hr]
                    · rw [update_of_ne hbb, update_of_ne hbb]
                      by_cases hbb : b' = k.unramified
                      · subst hbb; simp [hu]
                      · rw [update_of_ne hbb, update_of_ne hbb]; exact hb b'
                  · intro b' a' n' hm
                    rcases List.mem_cons.1 hm with hm | hm
                    · cases hm
                    · exact hw b' a' n' (List.mem_cons_of_mem _ hm)
                  · intro k' i' hm
                    rcases List.mem_cons.1 hm with hm | hm
                    · cases hm; exact ⟨k1, k2, k3, k4, k5⟩
                    · exact hk k' i' (List.mem_cons_of_mem _ hm)
                  · intro k' i' hm
                    rcases List.mem_cons.1 hm with hm | hm
                    · cases hm; exact ⟨t, d, hkk⟩
                    · exact hs k' i' (List.mem_cons_of_mem _ hm)
                · have hlt : i < (y :: ys).length := (List.getElem?_eq_some_iff.1 hx).1
                  simp only [load, List.map_cons, List.sum_cons, Cmd.cost, List.length_eraseIdx_of_lt hlt]
                  simp only [List.length_cons]
                  omega
              · refine .inr (.inr ⟨?_, k, y, ys, q, rfl, .inr ?_⟩)
                · have h6 : bufs k.ramified = none := by rw [hb, if_neg hr]
                  have h7 : OpenCL.item k bufs x = .ub := by
                    rw [OpenCL.item_eq, hval, Res.bind_ok,
                      OpenCL.store_eq_ok.2 ⟨u, by rw [hb, if_pos hu]; exact e2, e4, rfl⟩, Res.bind_ok]
                    unfold OpenCL.store OpenCL.get
                    rw [update_of_ne hsep.out.symm, h6]
                    rfl
                  simp only [device, OpenCL.device, hx, h7]
                  rfl
                · exact (valid_some k5).resolve_left (fun h => hr h.1) |>.1
            · refine .inr (.inr ⟨?_, k, y, ys, q, rfl, .inl ?_⟩)
              · have h6 : bufs k.unramified = none := by rw [hb, if_neg hu]
                have h7 : OpenCL.item k bufs x = .ub := by
                  rw [OpenCL.item_eq, hval, Res.bind_ok]
                  unfold OpenCL.store OpenCL.get
                  rw [h6]
                  rfl
                simp only [device, OpenCL.device, hx, h7]
                rfl
              · exact (valid_some k4).resolve_left (fun h => hu h.1) |>.1

end Calls
end Hycu
