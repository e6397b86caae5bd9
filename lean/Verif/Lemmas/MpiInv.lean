import Verif.Lemmas.MpiStep
import Verif.Lemmas.PoolInv

/-!
The invariant of a run with several processes.
-/

namespace Hycu
namespace Mpi

open Run (Tables Job Phase Thread ThreadPool FileStoreObj Cmd Cont Choice Env eraseFinished Book lead Distinct)

/-- Requests that are answered. -/
inductive Req where
  | finished
  | ready
  | save
deriving DecidableEq

/-- The message of a request. -/
def Req.msg : Req → Msg
  | .finished => .finishedBlocks
  | .ready => .readyThreads
  | .save => .save

/-- The message is a request. -/
def Msg.isReq (m : Msg) : Prop := ∃ r : Req, m = r.msg

theorem Req.msg_inj {r r' : Req} (h : r.msg = r'.msg) : r = r' := by
  cases r <;> cases r' <;> first | rfl | cases h

/-- The process has answered a request, and nothing else. -/
def Req.replied (p : Proc) : Req → Prop
  | .finished => (∃ bs, p.finishedOut = [bs]) ∧ p.readyOut = [] ∧ p.saveOut = []
  | .ready => p.finishedOut = [] ∧ (∃ n, p.readyOut = [n]) ∧ p.saveOut = []
  | .save => p.finishedOut = [] ∧ p.readyOut = [] ∧ ∃ s, p.saveOut = [s]

/-- There is no answer on the way. -/
def Proc.silent (p : Proc) : Prop := p.finishedOut = [] ∧ p.readyOut = [] ∧ p.saveOut = []

/-- The state of the messages, if the master waits for an answer to a request, or not. -/
def Proc.Prot (p : Proc) : Option Req → Prop
  | none => (∀ m ∈ p.inbox, ¬ m.isReq) ∧ p.silent
  | some r => ((∃ l, p.inbox = l ++ [r.msg] ∧ ∀ m ∈ l, ¬ m.isReq) ∧ p.silent) ∨ (p.inbox = [] ∧ r.replied p)

/-- The messages are the same. -/
structure Proc.Wire (p p' : Proc) : Prop where
  inbox : p'.inbox = p.inbox
  finishedOut : p'.finishedOut = p.finishedOut
  readyOut : p'.readyOut = p.readyOut
  saveOut : p'.saveOut = p.saveOut

theorem Proc.Same.wire {p p' : Proc} (h : p.Same p') : p.Wire p' := ⟨h.inbox, h.finishedOut, h.readyOut, h.saveOut⟩

theorem Proc.Prot.congr {p p' : Proc} (h : p.Wire p') {r : Option Req} (hp : p.Prot r) : p'.Prot r := by
  have hs : p.silent → p'.silent := by
    rintro ⟨h1, h2, h3⟩
    exact ⟨h.finishedOut.trans h1, h.readyOut.trans h2, h.saveOut.trans h3⟩
  cases r with
  | none =>
    refine ⟨?_, hs hp.2⟩
    rw [h.inbox]
    exact hp.1
  | some r =>
    rcases hp with ⟨h1, h2⟩ | ⟨h1, h2⟩
    · refine Or.inl ⟨?_, hs h2⟩
      rw [h.inbox]
      exact h1
    · refine Or.inr ⟨h.inbox.trans h1, ?_⟩
      cases r <;> simp only [Req.replied, h.finishedOut, h.readyOut, h.saveOut] at h2 ⊢ <;> exact h2

/-- Another message is received. -/
theorem Proc.Prot.other {p : Proc} {r : Option Req} (hp : p.Prot r) {m : Msg} {ms : List Msg} (hi : p.inbox = m :: ms)
    (hm : ¬ m.isReq) : { p with inbox := ms }.Prot r := by
  cases r with
  | none =>
    refine ⟨fun x hx => hp.1 x ?_, hp.2⟩
    rw [hi]
    exact List.mem_cons_of_mem _ hx
  | some r =>
    rcases hp with ⟨⟨l, h1, h3⟩, h2⟩ | ⟨h1, h2⟩
    · rw [hi] at h1
      cases l with
      | nil => exact absurd ⟨r, (List.cons_eq_cons.1 h1).1⟩ hm
      | cons x l =>
        obtain ⟨_, h5⟩ := List.cons_eq_cons.1 h1
        exact Or.inl ⟨⟨l, h5, fun y hy => h3 y (List.mem_cons_of_mem _ hy)⟩, h2⟩
    · rw [hi] at h1
      cases h1

/-- A request is received. -/
theorem Proc.Prot.request {p : Proc} {r : Option Req} (hp : p.Prot r) {r' : Req} {ms : List Msg}
    (hi : p.inbox = r'.msg :: ms) : r = some r' ∧ ms = [] ∧ p.silent := by
  cases r with
  | none => exact absurd ⟨r', rfl⟩ (hp.1 r'.msg (by rw [hi]; exact List.mem_cons_self))
  | some r =>
    rcases hp with ⟨⟨l, h1, h3⟩, h2⟩ | ⟨h1, h2⟩
    · rw [hi] at h1
      cases l with
      | nil =>
        obtain ⟨h4, h5⟩ := List.cons_eq_cons.1 h1
        rw [Req.msg_inj h4]
        exact ⟨rfl, h5, h2⟩
      | cons x l =>
        obtain ⟨h4, _⟩ := List.cons_eq_cons.1 h1
        exact absurd ⟨r', h4.symm⟩ (h3 x List.mem_cons_self)
    · rw [hi] at h1
      cases h1

/-- A request is sent. -/
theorem Proc.Prot.ask {p : Proc} (hp : p.Prot none) (r : Req) : (p.send r.msg).Prot (some r) :=
  Or.inl ⟨⟨p.inbox, rfl, hp.1⟩, hp.2⟩

/-- Another message is sent. -/
theorem Proc.Prot.tell {p : Proc} (hp : p.Prot none) {m : Msg} (hm : ¬ m.isReq) : (p.send m).Prot none := by
  refine ⟨fun x hx => ?_, hp.2⟩
  rcases List.mem_append.1 hx with h | h
  · exact hp.1 x h
  · rw [List.mem_singleton.1 h]
    exact hm

/-- Number of times that a block is known to a process, or on the way to it or from it. -/
def Proc.held (p : Proc) (b : Block) : Nat := p.inBlocks.count b + p.known b + p.finishedOut.flatten.count b

/-- Blocks that are passed to a process, but not yet in its set of assigned blocks. -/
def Pc.inflight : Pc → Nat → List Block
  | .notify _ b, ix => if ix = 0 then [b] else []
  | .insert jx b, ix => if ix = jx then [b] else []
  | _, _ => []

/-- The answer that the master waits for. -/
def Pc.expects : Pc → Nat → Option Req
  | .flushRecv jx _, ix => if ix = jx then some .finished else none
  | .readyRecv jx, ix => if ix = jx then some .ready else none
  | .saveRecv jx _, ix => if ix = jx then some .save else none
  | _, _ => none

/-- A process has handled all messages. -/
def Pc.calm : Pc → Nat → Prop
  | .flushSend jx (.wait _), ix => ix < jx
  | .flushRecv jx (.wait _), ix => ix < jx
  | .waited _, _ => True
  | .save k, _ => k ≠ .assign
  | .saveSend _ k, _ => k ≠ .assign
  | .saveRecv jx k, ix => k ≠ .assign ∧ ix ≠ jx
  | .write _ _ k, _ => k ≠ .assign
  | .newStore, _ => True
  | .update, _ => True
  | .configSend jx, ix => jx ≤ ix
  | .stopSend jx, ix => jx ≤ ix
  | _, _ => False

/-- All blocks are done. -/
def Pc.quiet : Pc → Prop
  | .save k => k ≠ .assign
  | .saveSend _ k => k ≠ .assign
  | .saveRecv _ k => k ≠ .assign
  | .write _ _ k => k ≠ .assign
  | .newStore => True
  | .update => True
  | .configSend _ => True
  | .stopSend _ => True
  | .shutdown _ => True
  | .shutNotify _ => True
  | .join _ => True
  | .finished => True
  | _ => False

/-- The processes that the master deals with are not the master. -/
def Pc.started (n : Nat) : Pc → Prop
  | .flushSend jx _ => 0 < jx
  | .flushRecv jx _ => 0 < jx ∧ jx < n
  | .readySend jx => 0 < jx
  | .readyRecv jx => 0 < jx ∧ jx < n
  | .saveSend jx _ => 0 < jx
  | .saveRecv jx _ => 0 < jx ∧ jx < n
  | .configSend jx => 0 < jx
  | .stopSend jx => 0 < jx
  | .insert jx _ => jx < n
  | _ => True

/-- What is known about a process. -/
structure PerProc (pc : Pc) (cpu ocl : Nat) (asg : OSet Block) (ld : List Block) (ix : Nat) (p : Proc) : Prop where
  ok : p.Ok (cpu + p.promised false + (p.readyOut.map Prod.fst).sum)
    (ocl + p.promised true + (p.readyOut.map Prod.snd).sum)
  sorted : OSet.Sorted asg
  ledger : ∀ b, asg.count b + (pc.inflight ix).count b = p.held b
  zero : ix = 0 → p.inbox = []
  prot : p.Prot (pc.expects ix)
  config : ∀ c, Msg.config c ∉ p.inbox.tail
  head : ∀ c ms, p.inbox = .config c :: ms → ∀ b, p.known b = 0
  calm : pc.calm ix → p.inbox = []
  quiet : pc.quiet → asg = []
  fresh : ∀ b ∈ ld, b ∉ asg ∧ b ∉ pc.inflight ix
  own : ∀ b ∈ pc.inflight ix, b ∉ asg

theorem Proc.busy_nil {p : Proc} (h : ∀ b, p.known b = 0) : p.pool.busy = [] ∧ p.pool.finished = [] := by
  have h1 : ∀ b, b ∉ p.pool.busy.map Prod.fst := fun b hb => by
    have := List.count_pos_iff.2 hb
    have := h b
    unfold Proc.known at this
    omega
  have h2 : ∀ b, b ∉ p.pool.finished := fun b hb => by
    have := List.count_pos_iff.2 hb
    have := h b
    unfold Proc.known at this
    omega
  exact ⟨List.map_eq_nil_iff.1 (List.eq_nil_iff_forall_not_mem.2 h1), List.eq_nil_iff_forall_not_mem.2 h2⟩

namespace PerProc

variable {pc : Pc} {cpu ocl : Nat} {asg : OSet Block} {ld : List Block} {ix : Nat} {p : Proc}

/-- The master makes a step that does not concern the process. -/
theorem move (h : PerProc pc cpu ocl asg ld ix p) (pc' : Pc) {ld' : List Block} (he : pc'.expects ix = pc.expects ix)
    (hi : pc'.inflight ix = pc.inflight ix) (hc : pc'.calm ix → pc.calm ix) (hq : pc'.quiet → asg = [])
    (hl : ∀ b ∈ ld', b ∈ ld) : PerProc pc' cpu ocl asg ld' ix p where
  ok := h.ok
  sorted := h.sorted
  ledger := by rw [hi]; exact h.ledger
  zero := h.zero
  prot := by rw [he]; exact h.prot
  config := h.config
  head := h.head
  calm hx := h.calm (hc hx)
  quiet := hq
  fresh b hb := by rw [hi]; exact h.fresh b (hl b hb)
  own := by rw [hi]; exact h.own

/-- The process makes a step that does not concern messages. -/
theorem swap (h : PerProc pc cpu ocl asg ld ix p) {p' : Proc} (hw : p.Wire p') (hk : ∀ b, p'.known b = p.known b)
    (hok : ∀ cpu ocl, p.Ok cpu ocl → p'.Ok cpu ocl) : PerProc pc cpu ocl asg ld ix p' where
  ok := by
    have := hok _ _ h.ok
    unfold Proc.promised at this ⊢
    rw [hw.inbox, hw.readyOut]
    exact this
  sorted := h.sorted
  ledger b := by
    have := h.ledger b
    unfold Proc.held Proc.inBlocks at this ⊢
    rw [hw.inbox, hw.finishedOut, hk]
    exact this
  zero h0 := hw.inbox.trans (h.zero h0)
  prot := h.prot.congr hw
  config := by rw [hw.inbox]; exact h.config
  head c ms hi b := by rw [hk]; exact h.head c ms (hw.inbox ▸ hi) b
  calm hc := hw.inbox.trans (h.calm hc)
  quiet := h.quiet
  fresh := h.fresh
  own := h.own

theorem thread (h : PerProc pc cpu ocl asg ld ix p) {env : Env} {i : Nat} (hi : i < p.size) {p' : Proc}
    (ht : Proc.TStep env p i p') : PerProc pc cpu ocl asg ld ix p' := by
  obtain ⟨_, h2, _, h4, _⟩ := ht.effect hi h.ok
  exact h.swap h2.wire h4 fun cpu ocl hok => (ht.effect hi hok).1

theorem wake (h : PerProc pc cpu ocl asg ld ix p) (i : Nat) : PerProc pc cpu ocl asg ld ix (p.wake i) := by
  obtain ⟨_, h2, h3, _⟩ := h.ok.wake i
  exact h.swap h2.wire (fun b => by unfold Proc.known; rw [h3]) fun cpu ocl hok => (hok.wake i).1

theorem stop (h : PerProc pc cpu ocl asg ld ix p) (i : Nat) : PerProc pc cpu ocl asg ld ix (p.stop i) := by
  obtain ⟨_, h2, h3, _⟩ := h.ok.stop i
  exact h.swap h2.wire (fun b => by unfold Proc.known; rw [h3]) fun cpu ocl hok => (hok.stop i).1

theorem setPc (h : PerProc pc cpu ocl asg ld ix p) (w : WorkerPc) : PerProc pc cpu ocl asg ld ix { p with pc := w } :=
  h.swap ⟨rfl, rfl, rfl, rfl⟩ (fun _ => rfl) fun _ _ hok => hok.congr rfl rfl rfl rfl

theorem setStatic (h : PerProc pc cpu ocl asg ld ix p) (s : Store.Static) :
    PerProc pc cpu ocl asg ld ix { p with static := s } :=
  h.swap ⟨rfl, rfl, rfl, rfl⟩ (fun _ => rfl) fun _ _ hok => hok.congr rfl rfl rfl rfl

theorem update (h : PerProc pc cpu ocl asg ld ix p) (hk : ∀ b, p.known b = 0) (c : ConfigNode) :
    PerProc pc cpu ocl asg ld ix (p.update c) :=
  h.swap ⟨rfl, rfl, rfl, rfl⟩ (fun _ => rfl) fun _ _ hok => hok.update (Proc.busy_nil hk).1 c

/-- Messages that are only removed. -/
theorem drop (h : PerProc pc cpu ocl asg ld ix p) {m : Msg} {ms : List Msg} (hi : p.inbox = m :: ms)
    (hr : ¬ m.isReq) (ha : ∀ o, m.isAssign o = false) (hb : m.block? = none) :
    PerProc pc cpu ocl asg ld ix { p with inbox := ms } where
  ok := by
    have h1 : ∀ o, { p with inbox := ms }.promised o = p.promised o := fun o => by
      unfold Proc.promised
      rw [hi, List.countP_cons_of_neg (by rw [ha o]; simp)]
    rw [h1, h1]
    exact h.ok.congr rfl rfl rfl rfl
  sorted := h.sorted
  ledger b := by
    rw [h.ledger b]
    unfold Proc.held Proc.inBlocks
    rw [hi, List.filterMap_cons_none hb]
    rfl
  zero h0 := by rw [h.zero h0] at hi; cases hi
  prot := h.prot.other hi hr
  config c hc := h.config c (by rw [hi]; exact List.mem_of_mem_tail hc)
  head c ms' hi' := by
    refine absurd ?_ (h.config c)
    rw [hi]
    show _ ∈ ms
    rw [show ms = _ from hi']
    exact List.mem_cons_self
  calm hc := by rw [h.calm hc] at hi; cases hi
  quiet := h.quiet
  fresh := h.fresh
  own := h.own

theorem not_req {m : Msg} (h1 : m ≠ .finishedBlocks) (h2 : m ≠ .readyThreads) (h3 : m ≠ .save) : ¬ m.isReq := by
  rintro ⟨r, rfl⟩
  cases r
  · exact h1 rfl
  · exact h2 rfl
  · exact h3 rfl

/-- A worker receives a block. -/
theorem assign (h : PerProc pc cpu ocl asg ld ix p) {o : Bool} {b : Block} {ms : List Msg}
    (hi : p.inbox = .assign o b :: ms) : ∃ r, { p with inbox := ms }.assign b o = .ok r ∧ r.2 < p.size ∧
      PerProc pc cpu ocl asg ld ix { r.1 with pc := .notify r.2 } := by
  have hnr : ¬ (Msg.assign o b).isReq := not_req (by simp) (by simp) (by simp)
  have hprom : ∀ o', p.promised o' = { p with inbox := ms }.promised o' + if o = o' then 1 else 0 := fun o' => by
    unfold Proc.promised
    rw [hi, List.countP_cons]
    simp only [Msg.isAssign, beq_iff_eq]
  have hcount : ∀ b', p.inBlocks.count b' = { p with inbox := ms }.inBlocks.count b' + [b].count b' := fun b' => by
    unfold Proc.inBlocks
    rw [hi, List.filterMap_cons_some (f := Msg.block?) (b := b) rfl, List.count_cons, List.count_singleton]
  have hknown : { p with inbox := ms }.known b = 0 := by
    have h1 := h.ledger b
    have h2 := hcount b
    have h3 : asg.count b ≤ 1 := List.nodup_iff_count_le_one.1 (OSet.sorted_nodup h.sorted) b
    have h4 : asg.count b + (pc.inflight ix).count b ≤ 1 := by
      by_cases hb : b ∈ pc.inflight ix
      · have h5 := List.count_eq_zero.2 (h.own b hb)
        have h6 : (pc.inflight ix).count b ≤ 1 := by
          refine le_trans List.count_le_length ?_
          unfold Pc.inflight
          split <;> (try split) <;> simp
        omega
      · rw [List.count_eq_zero.2 hb]
        omega
    have h5 : [b].count b = 1 := by simp
    have h6 : { p with inbox := ms }.known b = p.known b := rfl
    unfold Proc.held at h1
    omega
  have hok : { p with inbox := ms }.Ok (cpu + p.promised false + (p.readyOut.map Prod.fst).sum)
    (ocl + p.promised true + (p.readyOut.map Prod.snd).sum) := h.ok.congr rfl rfl rfl rfl
  have hn : (if o then (ocl + p.promised true + (p.readyOut.map Prod.snd).sum)
      else (cpu + p.promised false + (p.readyOut.map Prod.fst).sum)) ≠ 0 := by
    have h1 := hprom true
    have h2 := hprom false
    cases o
    · simp only [Bool.false_eq_true, if_false, if_true] at h2 ⊢
      omega
    · simp only [if_true] at h1 ⊢
      omega
  obtain ⟨r, h1, h2, h3, h4, h5, h6, h7, h8⟩ := hok.assign hknown hn
  refine ⟨r, h1, h2, PerProc.setPc ⟨?_, h.sorted, ?_, ?_, ?_, ?_, ?_, ?_, h.quiet, h.fresh, h.own⟩ _⟩
  · have e1 := hprom true
    have e2 := hprom false
    have e3 : r.1.promised = { p with inbox := ms }.promised := by unfold Proc.promised; rw [h4.inbox]
    have e4 : r.1.readyOut = p.readyOut := h4.readyOut
    rw [e3, e4]
    cases o
    · simp only [Bool.false_eq_true, if_false, if_true] at e1 e2 h3
      rw [show cpu + p.promised false + (p.readyOut.map Prod.fst).sum - 1 =
        cpu + { p with inbox := ms }.promised false + (p.readyOut.map Prod.fst).sum by omega] at h3
      rw [e1] at h3
      exact h3
    · simp only [Bool.true_eq_false, if_false, if_true] at e1 e2 h3
      rw [show ocl + p.promised true + (p.readyOut.map Prod.snd).sum - 1 =
        ocl + { p with inbox := ms }.promised true + (p.readyOut.map Prod.snd).sum by omega] at h3
      rw [e2] at h3
      exact h3
  · intro b'
    have e1 := h.ledger b'
    have e2 := hcount b'
    have e3 := h7 b'
    have e4 : r.1.inBlocks = { p with inbox := ms }.inBlocks := by unfold Proc.inBlocks; rw [h4.inbox]
    have e5 : { p with inbox := ms }.known b' = p.known b' := rfl
    have e6 : r.1.finishedOut = p.finishedOut := h4.finishedOut
    unfold Proc.held at e1 ⊢
    rw [e4, e6]
    omega
  · intro h0
    rw [h.zero h0] at hi
    cases hi
  · exact (h.prot.other hi hnr).congr h4.wire
  · intro c hc
    rw [h4.inbox] at hc
    exact h.config c (by rw [hi]; exact List.mem_of_mem_tail hc)
  · intro c ms' hi'
    rw [h4.inbox] at hi'
    refine absurd ?_ (h.config c)
    rw [hi]
    show _ ∈ ms
    rw [show ms = _ from hi']
    exact List.mem_cons_self
  · intro hc
    rw [h.calm hc] at hi
    cases hi

/-- A worker reports its ready threads. -/
theorem ready (h : PerProc pc cpu ocl asg ld ix p) {ms : List Msg} (hi : p.inbox = .readyThreads :: ms) :
    PerProc pc cpu ocl asg ld ix { p.flushReady.1 with inbox := ms, readyOut := p.readyOut ++ [p.flushReady.2] } := by
  obtain ⟨he, hms, hsi⟩ := h.prot.request (r' := .ready) hi
  subst hms
  obtain ⟨h1, h2, h3, h4, h5, h6, h7⟩ := h.ok.flushReady
  have hk : ∀ b, p.flushReady.1.known b = p.known b := fun b => by unfold Proc.known; rw [h6, h7]
  refine ⟨?_, h.sorted, ?_, fun _ => rfl, ?_, by simp, (by intro c ms h; cases h), fun _ => rfl, h.quiet, h.fresh, h.own⟩
  · have e1 : ∀ o, p.promised o = 0 := fun o => by unfold Proc.promised; rw [hi]; rfl
    have e2 : (p.readyOut.map Prod.fst).sum = 0 := by rw [hsi.2.1]; rfl
    have e3 : (p.readyOut.map Prod.snd).sum = 0 := by rw [hsi.2.1]; rfl
    rw [e1, e1, e2, e3] at h1
    rw [hsi.2.1]
    exact Proc.Ok.congr (p := p.flushReady.1) (by simpa [Proc.promised] using h1) rfl rfl rfl rfl
  · intro b
    have e1 := h.ledger b
    have e2 := hk b
    have e3 : p.inBlocks = [] := by unfold Proc.inBlocks; rw [hi]; rfl
    unfold Proc.held at e1 ⊢
    rw [e3] at e1
    show _ = _ + p.flushReady.1.known b + p.finishedOut.flatten.count b
    rw [e2, e1]
    rfl
  · rw [he]
    refine Or.inr ⟨rfl, hsi.1, ⟨p.flushReady.2, ?_⟩, hsi.2.2⟩
    show p.readyOut ++ _ = _
    rw [hsi.2.1]
    rfl

/-- A worker sends its store. -/
theorem save (h : PerProc pc cpu ocl asg ld ix p) {ms : List Msg} (hi : p.inbox = .save :: ms) (s : Store.Static)
    (f : List Char × List Char) :
    PerProc pc cpu ocl asg ld ix { p with inbox := ms, static := s, saveOut := p.saveOut ++ [f] } := by
  obtain ⟨he, hms, hsi⟩ := h.prot.request (r' := .save) hi
  subst hms
  refine ⟨?_, h.sorted, ?_, fun _ => rfl, ?_, by simp, (by intro c ms h; cases h), fun _ => rfl, h.quiet, h.fresh, h.own⟩
  · have e1 : ∀ o, p.promised o = 0 := fun o => by unfold Proc.promised; rw [hi]; rfl
    have := h.ok
    rw [e1, e1] at this
    exact this.congr rfl rfl rfl rfl
  · intro b
    have e1 := h.ledger b
    have e3 : p.inBlocks = [] := by unfold Proc.inBlocks; rw [hi]; rfl
    unfold Proc.held at e1 ⊢
    rw [e3] at e1
    exact e1
  · rw [he]
    refine Or.inr ⟨rfl, hsi.1, hsi.2.1, f, ?_⟩
    show p.saveOut ++ _ = _
    rw [hsi.2.2]
    rfl

/-- A worker reports finished blocks. -/
theorem finished (h : PerProc pc cpu ocl asg ld ix p) {ms : List Msg} (hi : p.inbox = .finishedBlocks :: ms) :
    PerProc pc cpu ocl asg ld ix
      { p.flushFinished.1 with inbox := ms, finishedOut := p.finishedOut ++ [p.pool.finished] } := by
  obtain ⟨he, hms, hsi⟩ := h.prot.request (r' := .finished) hi
  subst hms
  refine ⟨?_, h.sorted, ?_, fun _ => rfl, ?_, by simp, (by intro c ms h; cases h), fun _ => rfl, h.quiet, h.fresh, h.own⟩
  · have e1 : ∀ o, p.promised o = 0 := fun o => by unfold Proc.promised; rw [hi]; rfl
    have := h.ok.flushFinished
    rw [e1, e1] at this
    exact this.congr rfl rfl rfl rfl
  · intro b
    have e1 := h.ledger b
    have e3 : p.inBlocks = [] := by unfold Proc.inBlocks; rw [hi]; rfl
    unfold Proc.held Proc.known at e1 ⊢
    rw [e3, hsi.1] at e1
    rw [e1, hsi.1]
    simp [Proc.flushFinished, Proc.inBlocks]
  · rw [he]
    refine Or.inr ⟨rfl, ⟨p.pool.finished, ?_⟩, hsi.2.1, hsi.2.2⟩
    show p.finishedOut ++ _ = _
    rw [hsi.1]
    rfl

theorem worker (h : PerProc pc cpu ocl asg ld ix p) {p' : Proc} (hw : WStep p p') : PerProc pc cpu ocl asg ld ix p' := by
  cases hw with
  | config c ms hi =>
    exact (h.drop hi (not_req (by simp) (by simp) (by simp)) (fun _ => rfl) rfl).update (h.head c ms hi) c
  | assign o b ms hi r hr =>
    obtain ⟨r', h1, _, h2⟩ := h.assign hi
    rw [hr] at h1
    cases h1
    exact h2
  | ready ms hi => exact h.ready hi
  | save ms hi => exact h.save hi _ _
  | finished ms hi => exact h.finished hi
  | shutdown ms hi =>
    exact (h.drop hi (not_req (by simp) (by simp) (by simp)) (fun _ => rfl) rfl).setPc _
  | wake i w => exact (h.wake i).setPc w
  | stop i w => exact (h.stop i).setPc w
  | pc w => exact h.setPc w

/-- The master sends a request. -/
theorem ask (h : PerProc pc cpu ocl asg ld ix p) (h0 : ix ≠ 0) {r : Req} {pc' : Pc} (he : pc.expects ix = none)
    (he' : pc'.expects ix = some r) (hi : pc'.inflight ix = pc.inflight ix) (hc : ¬ pc'.calm ix)
    (hq : pc'.quiet → asg = []) : PerProc pc' cpu ocl asg ld ix (p.send r.msg) where
  ok := by
    have h1 : ∀ o, (p.send r.msg).promised o = p.promised o := fun o => by
      unfold Proc.promised Proc.send
      simp only
      rw [List.countP_append]
      cases r <;> simp [Req.msg, Msg.isAssign]
    rw [h1, h1]
    exact h.ok.congr rfl rfl rfl rfl
  sorted := h.sorted
  ledger b := by
    rw [hi, h.ledger b]
    unfold Proc.held Proc.inBlocks Proc.send
    simp only
    rw [List.filterMap_append]
    cases r <;> simp [Req.msg, Msg.block?] <;> rfl
  zero h0' := absurd h0' h0
  prot := by
    rw [he']
    have := h.prot
    rw [he] at this
    exact this.ask r
  config c hcc := by
    unfold Proc.send at hcc
    simp only at hcc
    have h1 := h.config c
    cases hb : p.inbox with
    | nil => rw [hb] at hcc; cases hcc
    | cons m ms =>
      rw [hb] at hcc h1
      rcases List.mem_append.1 hcc with h2 | h2
      · exact h1 h2
      · cases r <;> cases List.mem_singleton.1 h2
  head c ms hi' := by
    unfold Proc.send at hi'
    simp only at hi'
    cases hb : p.inbox with
    | nil =>
      rw [hb] at hi'
      cases r <;> cases hi'
    | cons m l =>
      rw [hb] at hi'
      obtain ⟨h1, h2⟩ := List.cons_eq_cons.1 hi'
      exact h.head c l (by rw [hb, h1])
  calm hx := absurd hx hc
  quiet := hq
  fresh b hb := by rw [hi]; exact h.fresh b hb
  own := by rw [hi]; exact h.own

/-- The master sends a message to a process that has handled all messages before. -/
theorem tell (h : PerProc pc cpu ocl asg ld ix p) (h0 : ix ≠ 0) {m : Msg} (hm : ¬ m.isReq)
    (ha : ∀ o, m.isAssign o = false) (hb : m.block? = none) (hin : p.inbox = []) (hk : ∀ b, p.known b = 0) {pc' : Pc}
    (he : pc.expects ix = none) (he' : pc'.expects ix = none) (hi : pc'.inflight ix = pc.inflight ix)
    (hc : ¬ pc'.calm ix) (hq : pc'.quiet → asg = []) : PerProc pc' cpu ocl asg ld ix (p.send m) where
  ok := by
    have h1 : ∀ o, (p.send m).promised o = p.promised o := fun o => by
      unfold Proc.promised Proc.send
      simp only
      rw [List.countP_append, List.countP_singleton, ha o]
      rfl
    rw [h1, h1]
    exact h.ok.congr rfl rfl rfl rfl
  sorted := h.sorted
  ledger b := by
    rw [hi, h.ledger b]
    unfold Proc.held Proc.inBlocks Proc.send
    simp only
    rw [List.filterMap_append, List.filterMap_cons_none hb, List.filterMap_nil, List.append_nil]
    rfl
  zero h0' := absurd h0' h0
  prot := by
    rw [he']
    have := h.prot
    rw [he] at this
    exact this.tell hm
  config c hcc := by
    unfold Proc.send at hcc
    simp only at hcc
    rw [hin] at hcc
    cases hcc
  head _ _ _ := hk
  calm hx := absurd hx hc
  quiet := hq
  fresh b hb := by rw [hi]; exact h.fresh b hb
  own := by rw [hi]; exact h.own

/-- The master sends a block; `cpu'` and `ocl'` are the numbers of idle threads that remain. -/
theorem pass (h : PerProc pc cpu ocl asg ld ix p) (h0 : ix ≠ 0) {o : Bool} {b : Block} {pc' : Pc} {ld' : List Block}
    {cpu' ocl' : Nat} (hcpu : cpu = cpu' + if o = false then 1 else 0) (hocl : ocl = ocl' + if o = true then 1 else 0)
    (he : pc.expects ix = none) (he' : pc'.expects ix = none)
    (hi : pc.inflight ix = []) (hi' : pc'.inflight ix = [b]) (hc : ¬ pc'.calm ix) (hq : ¬ pc'.quiet)
    (hl : ∀ x ∈ ld', x ∈ ld ∧ x ≠ b) (hb : b ∉ asg) : PerProc pc' cpu' ocl' asg ld' ix (p.send (.assign o b)) where
  ok := by
    have h1 : ∀ o', (p.send (.assign o b)).promised o' = p.promised o' + if o = o' then 1 else 0 := fun o' => by
      unfold Proc.promised Proc.send
      simp only
      rw [List.countP_append, List.countP_singleton]
      simp only [Msg.isAssign, beq_iff_eq]
    have h2 := h.ok
    rw [hcpu, hocl] at h2
    rw [h1, h1]
    rw [show cpu' + (p.promised false + if o = false then 1 else 0) = (cpu' + if o = false then 1 else 0) + p.promised false by omega,
      show ocl' + (p.promised true + if o = true then 1 else 0) = (ocl' + if o = true then 1 else 0) + p.promised true by omega]
    exact h2.congr rfl rfl rfl rfl
  sorted := h.sorted
  ledger b' := by
    have h1 := h.ledger b'
    have h2 : (p.send (.assign o b)).inBlocks = p.inBlocks ++ [b] := by
      unfold Proc.inBlocks Proc.send
      simp only
      rw [List.filterMap_append, List.filterMap_cons_some (f := Msg.block?) (b := b) rfl, List.filterMap_nil]
    rw [hi]at h1
    rw [hi']
    unfold Proc.held at h1 ⊢
    rw [h2, List.count_append]
    show _ = _ + p.known b' + p.finishedOut.flatten.count b'
    simp only [List.count_nil] at h1
    omega
  zero h0' := absurd h0' h0
  prot := by
    rw [he']
    have := h.prot
    rw [he] at this
    exact this.tell (not_req (by simp) (by simp) (by simp))
  config c hcc := by
    unfold Proc.send at hcc
    simp only at hcc
    have h1 := h.config c
    cases hb : p.inbox with
    | nil => rw [hb] at hcc; cases hcc
    | cons m ms =>
      rw [hb] at hcc h1
      rcases List.mem_append.1 hcc with h2 | h2
      · exact h1 h2
      · cases List.mem_singleton.1 h2
  head c ms hi' := by
    unfold Proc.send at hi'
    simp only at hi'
    cases hb : p.inbox with
    | nil =>
      rw [hb] at hi'
      cases hi'
    | cons m l =>
      rw [hb] at hi'
      obtain ⟨h1, h2⟩ := List.cons_eq_cons.1 hi'
      exact h.head c l (by rw [hb, h1])
  calm hx := absurd hx hc
  quiet hx := absurd hx hq
  fresh x hx := by
    rw [hi']
    exact ⟨(h.fresh x (hl x hx).1).1, by simpa using (hl x hx).2⟩
  own x hx := by
    rw [hi'] at hx
    rw [List.mem_singleton.1 hx]
    exact hb

end PerProc

theorem eraseFinished_count : ∀ (bs : List Block) (a : OSet Block), OSet.Sorted a → (∀ b, bs.count b ≤ a.count b) →
    ∃ a', eraseFinished bs a = .ok a' ∧ OSet.Sorted a' ∧ ∀ b, a'.count b + bs.count b = a.count b
  | [], a, hs, _ => ⟨a, rfl, hs, fun b => by simp⟩
  | b :: bs, a, hs, hc => by
    have hb : b ∈ a := by
      have := hc b
      rw [List.count_cons_self] at this
      exact List.count_pos_iff.1 (by omega)
    have h1 : ∀ x, a.count x = (OSet.erase a b).count x + [b].count x := fun x => by
      rw [(OSet.perm_erase hs hb).count_eq x, List.count_cons, List.count_singleton]
    have h2 : ∀ x, (b :: bs).count x = bs.count x + [b].count x := fun x => by
      rw [List.count_cons, List.count_singleton]
    obtain ⟨a', h3, h4, h5⟩ := eraseFinished_count bs (OSet.erase a b) (OSet.sorted_erase hs b) fun x => by
      have := hc x
      have := h1 x
      have := h2 x
      omega
    refine ⟨a', ?_, h4, fun x => ?_⟩
    · unfold eraseFinished
      rw [if_pos ((OSet.contains_iff hs).2 hb), h3]
    · have := h5 x
      have := h1 x
      have := h2 x
      omega

namespace PerProc

variable {pc : Pc} {cpu ocl : Nat} {asg : OSet Block} {ld : List Block} {ix : Nat} {p : Proc}

/-- The master receives the finished blocks of a process. -/
theorem recvFinished (h : PerProc pc cpu ocl asg ld ix p) (he : pc.expects ix = some .finished)
    (hi : pc.inflight ix = []) {bs : List Block} {rest : List (List Block)} (ho : p.finishedOut = bs :: rest) :
    ∃ a, eraseFinished bs asg = .ok a ∧ ∀ pc', pc'.expects ix = none → pc'.inflight ix = [] → ¬ pc'.quiet →
      PerProc pc' cpu ocl a ld ix { p with finishedOut := rest } := by
  have hp := h.prot
  rw [he] at hp
  rcases hp with ⟨_, hs⟩ | ⟨hin, ⟨bs', hbs⟩, h2, h3⟩
  · rw [hs.1] at ho
    cases ho
  rw [hbs] at ho
  cases ho
  have hl : ∀ b, asg.count b = p.inBlocks.count b + p.known b + bs.count b := fun b => by
    have := h.ledger b
    unfold Proc.held at this
    rw [hi, hbs] at this
    simpa using this
  obtain ⟨a, h4, h5, h6⟩ := eraseFinished_count bs asg h.sorted fun b => by have := hl b; omega
  have hsub : ∀ b, b ∉ asg → b ∉ a := fun b hb => by
    have := h6 b
    rw [List.count_eq_zero.2 hb] at this
    exact List.count_eq_zero.1 (by omega)
  refine ⟨a, h4, fun pc' he' hi' hq => ⟨h.ok.congr rfl rfl rfl rfl, h5, ?_, h.zero, ?_, h.config, h.head, fun _ => hin,
    fun hx => absurd hx hq, ?_, ?_⟩⟩
  · intro b
    have := hl b
    have := h6 b
    unfold Proc.held
    rw [hi']
    show _ = p.inBlocks.count b + p.known b + _
    simp only [List.count_nil, List.flatten_nil]
    omega
  · rw [he']
    refine ⟨?_, rfl, h2, h3⟩
    show ∀ m ∈ p.inbox, _
    rw [hin]
    simp
  · intro b hb
    rw [hi']
    exact ⟨hsub b (h.fresh b hb).1, by simp⟩
  · rw [hi']
    simp

/-- The master receives the ready threads of a process. -/
theorem recvReady (h : PerProc pc cpu ocl asg ld ix p) (he : pc.expects ix = some .ready)
    {n : Nat × Nat} {rest : List (Nat × Nat)} (ho : p.readyOut = n :: rest) {pc' : Pc}
    (he' : pc'.expects ix = none) (hi' : pc'.inflight ix = pc.inflight ix) (hq : ¬ pc'.quiet) :
    PerProc pc' (cpu + n.1) (ocl + n.2) asg ld ix { p with readyOut := rest } := by
  have hp := h.prot
  rw [he] at hp
  rcases hp with ⟨_, hs⟩ | ⟨hin, h2, ⟨n', hn⟩, h3⟩
  · rw [hs.2.1] at ho
    cases ho
  rw [hn] at ho
  cases ho
  refine ⟨?_, h.sorted, ?_, h.zero, ?_, h.config, h.head, fun _ => hin, fun hx => absurd hx hq, ?_, ?_⟩
  · have h1 := h.ok
    have e : ∀ o, p.promised o = 0 := fun o => by unfold Proc.promised; rw [hin]; rfl
    rw [hn, e, e] at h1
    have e' : ∀ o, { p with readyOut := [] }.promised o = 0 := e
    rw [e', e']
    exact Proc.Ok.congr (p := p) (by simpa using h1) rfl rfl rfl rfl
  · rw [hi']
    exact h.ledger
  · rw [he']
    refine ⟨?_, h2, rfl, h3⟩
    show ∀ m ∈ p.inbox, _
    rw [hin]
    simp
  · rw [hi']
    exact h.fresh
  · rw [hi']
    exact h.own

/-- The master receives the store of a process. -/
theorem recvSave (h : PerProc pc cpu ocl asg ld ix p) (he : pc.expects ix = some .save)
    {s : List Char × List Char} {rest : List (List Char × List Char)} (ho : p.saveOut = s :: rest) {pc' : Pc}
    (he' : pc'.expects ix = none) (hi' : pc'.inflight ix = pc.inflight ix) (hq : pc'.quiet → asg = []) :
    PerProc pc' cpu ocl asg ld ix { p with saveOut := rest } := by
  have hp := h.prot
  rw [he] at hp
  rcases hp with ⟨_, hs⟩ | ⟨hin, h2, h3, ⟨n', hn⟩⟩
  · rw [hs.2.2] at ho
    cases ho
  rw [hn] at ho
  cases ho
  refine ⟨h.ok.congr rfl rfl rfl rfl, h.sorted, ?_, h.zero, ?_, h.config, h.head, fun _ => hin, hq, ?_, ?_⟩
  · rw [hi']
    exact h.ledger
  · rw [he']
    refine ⟨?_, h2, h3, rfl⟩
    show ∀ m ∈ p.inbox, _
    rw [hin]
    simp
  · rw [hi']
    exact h.fresh
  · rw [hi']
    exact h.own

/-- The blocks finished by the threads of the master. -/
theorem flush (h : PerProc pc cpu ocl asg ld 0 p) (he : pc.expects 0 = none) (hi : pc.inflight 0 = []) :
    ∃ a, eraseFinished p.pool.finished asg = .ok a ∧ ∀ pc', pc'.expects 0 = none → pc'.inflight 0 = [] → ¬ pc'.quiet →
      PerProc pc' cpu ocl a ld 0 p.flushFinished.1 := by
  have hp := h.prot
  rw [he] at hp
  have hl : ∀ b, asg.count b = (p.pool.busy.map Prod.fst).count b + p.pool.finished.count b := fun b => by
    have := h.ledger b
    unfold Proc.held Proc.known Proc.inBlocks at this
    rw [hi, hp.2.1, h.zero rfl] at this
    simpa using this
  obtain ⟨a, h4, h5, h6⟩ := eraseFinished_count p.pool.finished asg h.sorted fun b => by have := hl b; omega
  have hsub : ∀ b, b ∉ asg → b ∉ a := fun b hb => by
    have := h6 b
    rw [List.count_eq_zero.2 hb] at this
    exact List.count_eq_zero.1 (by omega)
  refine ⟨a, h4, fun pc' he' hi' hq => ⟨h.ok.flushFinished, h5, ?_, h.zero, ?_, h.config, ?_, fun _ => h.zero rfl,
    fun hx => absurd hx hq, ?_, ?_⟩⟩
  · intro b
    have := hl b
    have := h6 b
    unfold Proc.held Proc.known Proc.inBlocks
    rw [hi']
    show _ = (p.inbox.filterMap Msg.block?).count b + ((p.pool.busy.map Prod.fst).count b + [].count b) +
      p.finishedOut.flatten.count b
    rw [hp.2.1, h.zero rfl]
    simp only [List.count_nil, List.flatten_nil, List.filterMap_nil]
    omega
  · rw [he']
    exact hp
  · intro c ms hin
    rw [show p.flushFinished.1.inbox = p.inbox from rfl, h.zero rfl] at hin
    cases hin
  · intro b hb
    rw [hi']
    exact ⟨hsub b (h.fresh b hb).1, by simp⟩
  · rw [hi']
    simp

/-- The ready threads of the master. -/
theorem readyLocal (h : PerProc pc cpu ocl asg ld 0 p) (he : pc.expects 0 = none) {pc' : Pc}
    (he' : pc'.expects 0 = none) (hi' : pc'.inflight 0 = pc.inflight 0) (hq : ¬ pc'.quiet) :
    PerProc pc' (cpu + p.flushReady.2.1) (ocl + p.flushReady.2.2) asg ld 0 p.flushReady.1 := by
  have hp := h.prot
  rw [he] at hp
  obtain ⟨h1, h2, h3, h4, h5, h6, h7⟩ := h.ok.flushReady
  refine ⟨?_, h.sorted, ?_, h.zero, ?_, h.config, ?_, fun _ => h.zero rfl, fun hx => absurd hx hq, ?_, ?_⟩
  · have e : ∀ o, p.promised o = 0 := fun o => by unfold Proc.promised; rw [h.zero rfl]; rfl
    have e' : ∀ o, p.flushReady.1.promised o = 0 := e
    rw [e, e, hp.2.2.1] at h1
    rw [e', e', show p.flushReady.1.readyOut = [] from hp.2.2.1]
    simpa using h1
  · intro b
    have := h.ledger b
    rw [hi', this]
    rfl
  · rw [he']
    exact hp
  · intro c ms hin
    rw [show p.flushReady.1.inbox = p.inbox from rfl, h.zero rfl] at hin
    cases hin
  · rw [hi']
    exact h.fresh
  · rw [hi']
    exact h.own

/-- The master passes a block to one of its threads. -/
theorem passLocal (h : PerProc pc cpu ocl asg ld 0 p) {o : Bool} {b : Block} {cpu' ocl' : Nat}
    (hcpu : cpu = cpu' + if o = false then 1 else 0) (hocl : ocl = ocl' + if o = true then 1 else 0)
    (he : pc.expects 0 = none) (hi : pc.inflight 0 = []) (hb : b ∉ asg) : ∃ r, p.assign b o = .ok r ∧ r.2 < p.size ∧
      ∀ pc' ld', pc'.expects 0 = none → pc'.inflight 0 = [b] → ¬ pc'.quiet → (∀ x ∈ ld', x ∈ ld ∧ x ≠ b) →
      PerProc pc' cpu' ocl' asg ld' 0 r.1 := by
  have hp := h.prot
  rw [he] at hp
  have e : ∀ o, p.promised o = 0 := fun o => by unfold Proc.promised; rw [h.zero rfl]; rfl
  have hok := h.ok
  rw [e, e, hp.2.2.1] at hok
  simp only [Nat.add_zero, List.map_nil, List.sum_nil] at hok
  have hl : ∀ b, asg.count b = p.known b := fun b => by
    have := h.ledger b
    unfold Proc.held Proc.inBlocks at this
    rw [hi, hp.2.1, h.zero rfl] at this
    simpa using this
  have hk : p.known b = 0 := by rw [← hl b]; exact List.count_eq_zero.2 hb
  obtain ⟨r, h1, h2, h3, h4, h5, h6, h7, h8⟩ := hok.assign (opencl := o) hk (by
    cases o
    · simp only [Bool.false_eq_true, if_false, if_true] at hcpu ⊢
      omega
    · simp only [if_true] at hocl ⊢
      omega)
  refine ⟨r, h1, h2, fun pc' ld' he' hi' hq hld => ⟨?_, h.sorted, ?_, fun _ => h4.inbox.trans (h.zero rfl), ?_, ?_, ?_,
    fun _ => h4.inbox.trans (h.zero rfl), fun hx => absurd hx hq, ?_, ?_⟩⟩
  · have e' : ∀ o, r.1.promised o = 0 := fun o => by unfold Proc.promised; rw [h4.inbox, h.zero rfl]; rfl
    rw [e', e', h4.readyOut, hp.2.2.1]
    cases o
    · simp only [Bool.false_eq_true, if_false, if_true] at hcpu hocl h3
      rw [show cpu - 1 = cpu' by omega, hocl] at h3
      exact h3
    · simp only [Bool.true_eq_false, if_false, if_true] at hcpu hocl h3
      rw [show ocl - 1 = ocl' by omega, hcpu] at h3
      exact h3
  · intro b'
    have := hl b'
    have := h7 b'
    unfold Proc.held Proc.inBlocks
    rw [hi', h4.inbox, h4.finishedOut, h.zero rfl, hp.2.1]
    simp only [List.count_nil, List.flatten_nil, List.filterMap_nil]
    omega
  · rw [he']
    exact hp.congr h4.wire
  · rw [h4.inbox]
    exact h.config
  · intro c ms hin
    rw [h4.inbox, h.zero rfl] at hin
    cases hin
  · intro x hx
    rw [hi']
    exact ⟨(h.fresh x (hld x hx).1).1, by simpa using (hld x hx).2⟩
  · intro x hx
    rw [hi'] at hx
    rw [List.mem_singleton.1 hx]
    exact hb

/-- The block is added to the assigned blocks. -/
theorem insert (h : PerProc pc cpu ocl asg ld ix p) {b : Block} (hi : pc.inflight ix = [b]) {pc' : Pc}
    (he' : pc'.expects ix = pc.expects ix) (hi' : pc'.inflight ix = []) (hc : ¬ pc'.calm ix) (hq : ¬ pc'.quiet) :
    PerProc pc' cpu ocl (OSet.insert asg b) ld ix p := by
  have hb : b ∉ asg := h.own b (by rw [hi]; exact List.mem_singleton.2 rfl)
  refine ⟨h.ok, OSet.sorted_insert h.sorted b, ?_, h.zero, by rw [he']; exact h.prot, h.config, h.head,
    fun hx => absurd hx hc, fun hx => absurd hx hq, ?_, by rw [hi']; simp⟩
  · intro b'
    have h1 := h.ledger b'
    rw [hi] at h1
    rw [hi', (OSet.perm_insert h.sorted hb).count_eq, List.count_cons, ← h1, List.count_singleton]
    rfl
  · intro x hx
    rw [hi']
    have := h.fresh x hx
    rw [hi, List.mem_singleton] at this
    refine ⟨?_, by simp⟩
    rw [OSet.mem_insert]
    exact fun h => h.elim this.2 this.1

/-- Nothing is known to the process. -/
theorem known_zero (h : PerProc pc cpu ocl asg ld ix p) (hi : pc.inflight ix = []) (hq : asg = []) (b : Block) :
    p.known b = 0 := by
  have := h.ledger b
  rw [hi, hq] at this
  unfold Proc.held at this
  simp only [List.count_nil] at this
  omega

end PerProc

/-- The invariant. -/
structure Inv (st : State) : Prop where
  pos : 0 < st.nprocs
  each : ∀ q, q < st.nprocs → PerProc st.pc (st.cpuQueue.count q) (st.openclQueue.count q) (st.assigned q)
    (lead st.todo) q (st.procs q)
  started : st.pc.started st.nprocs
  queue : ∀ q ∈ st.cpuQueue ++ st.openclQueue, q < st.nprocs
  take : st.pc = .take → st.cpuQueue ≠ [] ∨ st.openclQueue ≠ []
  distinct : Distinct st.todo

namespace Inv

variable {st : State}

/-- A process makes a step. -/
theorem proc (h : Inv st) {ix : Nat} {p : Proc} (hp : PerProc st.pc (st.cpuQueue.count ix) (st.openclQueue.count ix)
    (st.assigned ix) (lead st.todo) ix p) : Inv (st.setProc ix p) := by
  refine ⟨h.pos, fun q hq => ?_, h.started, h.queue, h.take, h.distinct⟩
  simp only [State.setProc]
  by_cases hx : q = ix
  · subst hx
    rw [Function.update_self]
    exact hp
  · rw [Function.update_of_ne hx]
    exact h.each q hq

/-- The master makes a step that does not concern the processes. -/
theorem move (h : Inv st) (fs : FileSystem) (f : Option FileStoreObj) (pc' : Pc) {todo' : List Cmd}
    (he : ∀ q, pc'.expects q = st.pc.expects q) (hi : ∀ q, pc'.inflight q = st.pc.inflight q)
    (hc : ∀ q, q < st.nprocs → pc'.calm q → st.pc.calm q)
    (hq : pc'.quiet → ∀ q, q < st.nprocs → st.assigned q = [])
    (hs : pc'.started st.nprocs) (ht : pc' = .take → st.cpuQueue ≠ [] ∨ st.openclQueue ≠ [])
    (hl : ∀ b ∈ lead todo', b ∈ lead st.todo) (hd : Distinct todo') :
    Inv { st with fs := fs, fileStore := f, pc := pc', todo := todo' } :=
  ⟨h.pos, fun q hx => (h.each q hx).move pc' (he q) (hi q) (hc q hx) (fun hy => hq hy q hx) hl, hs, h.queue, ht, hd⟩

end Inv

theorem count_cons_ne {q x : Nat} (h : q ≠ x) (l : List Nat) : (x :: l).count q = l.count q :=
  List.count_cons_of_ne (Ne.symm h)

theorem lead_assign {st : State} {b : Block} {rest : List Cmd} (ht : st.todo = .assign b :: rest) :
    lead st.todo = b :: lead rest := by rw [ht]; rfl

/-- The master asks a process. -/
theorem Inv.askProc {st : State} (h : Inv st) {ix : Nat} (h0 : 0 < ix) {r : Req} (pc' : Pc)
    (he : ∀ q, st.pc.expects q = none) (he' : ∀ q, pc'.expects q = if q = ix then some r else none)
    (hi : ∀ q, st.pc.inflight q = []) (hi' : ∀ q, pc'.inflight q = []) (hcx : ¬ pc'.calm ix)
    (hc : ∀ q, q < st.nprocs → pc'.calm q → st.pc.calm q)
    (hq : pc'.quiet → ∀ q, q < st.nprocs → st.assigned q = []) (hs : pc'.started st.nprocs) (ht : pc' ≠ .take) :
    Inv { st.send ix r.msg with pc := pc' } := by
  refine ⟨h.pos, fun q hx => ?_, hs, h.queue, fun hx => absurd hx ht, h.distinct⟩
  simp only [State.send, State.setProc]
  by_cases hqx : q = ix
  · subst hqx
    rw [Function.update_self]
    exact (h.each q hx).ask (by omega) (he q) (by rw [he', if_pos rfl]) (by rw [hi, hi']) hcx (fun hy => hq hy q hx)
  · rw [Function.update_of_ne hqx]
    exact (h.each q hx).move pc' (by rw [he', he, if_neg hqx]) (by rw [hi, hi']) (hc q hx) (fun hy => hq hy q hx)
      fun _ hb => hb

/-- The master tells a process something. -/
theorem Inv.tellProc {st : State} (h : Inv st) {ix : Nat} (h0 : 0 < ix) {m : Msg} (hm : ¬ m.isReq)
    (ha : ∀ o, m.isAssign o = false) (hb : m.block? = none) (pc' : Pc) (hcalm : st.pc.calm ix) (hquiet : st.pc.quiet)
    (he : ∀ q, st.pc.expects q = none) (he' : ∀ q, pc'.expects q = none)
    (hi : ∀ q, st.pc.inflight q = []) (hi' : ∀ q, pc'.inflight q = []) (hcx : ¬ pc'.calm ix)
    (hc : ∀ q, q < st.nprocs → pc'.calm q → st.pc.calm q)
    (hs : pc'.started st.nprocs) (ht : pc' ≠ .take) : Inv { st.send ix m with pc := pc' } := by
  refine ⟨h.pos, fun q hx => ?_, hs, h.queue, fun hx => absurd hx ht, h.distinct⟩
  simp only [State.send, State.setProc]
  have hasg := (h.each q hx).quiet hquiet
  by_cases hqx : q = ix
  · subst hqx
    rw [Function.update_self]
    exact (h.each q hx).tell (by omega) hm ha hb ((h.each q hx).calm hcalm) ((h.each q hx).known_zero (hi q) hasg)
      (he q) (he' q) (by rw [hi, hi']) hcx (fun _ => hasg)
  · rw [Function.update_of_ne hqx]
    exact (h.each q hx).move pc' (by rw [he', he]) (by rw [hi, hi']) (hc q hx) (fun _ => hasg) fun _ hb => hb

theorem Inv.master {st st' : State} (h : Inv st) (hs : MStep st st') : Inv st' := by
  cases hs with
  | mainEnd hpc ht =>
    exact h.move st.fs st.fileStore _ (by rw [hpc]; intro q; rfl) (by rw [hpc]; intro q; rfl)
      (by intro _ _ hx; cases hx) (by intro hx; cases hx) trivial (by intro hx; cases hx) (fun _ hb => hb) h.distinct
  | mainConfig hpc c rest ht create v hv =>
    split <;>
    exact h.move v.1 st.fileStore _ (by rw [hpc]; intro q; rfl) (by rw [hpc]; intro q; rfl)
      (by intro _ _ hx; cases hx) (by intro hx; cases hx) trivial (by intro hx; cases hx) (fun _ hb => hb) h.distinct
  | mainAssign hpc b rest ht now =>
    split <;>
    exact h.move st.fs st.fileStore _ (by rw [hpc]; intro q; rfl) (by rw [hpc]; intro q; rfl)
      (by intro _ _ hx; exact absurd hx (by simp [Pc.calm])) (by intro hx; exact absurd hx (by simp [Pc.quiet])) trivial
      (by intro hx; cases hx) (fun _ hb => hb) h.distinct
  | flush c hpc a ha =>
    refine ⟨h.pos, fun q hx => ?_, Nat.one_pos, h.queue, fun hx => (by cases hx), h.distinct⟩
    simp only [State.setProc]
    have he : ∀ q, st.pc.expects q = none := by rw [hpc]; intro q; rfl
    have hi : ∀ q, st.pc.inflight q = [] := by rw [hpc]; intro q; rfl
    by_cases hqx : q = 0
    · subst hqx
      rw [Function.update_self, Function.update_self]
      obtain ⟨a', h1, h2⟩ := (h.each 0 hx).flush (he 0) (hi 0)
      rw [ha] at h1
      cases h1
      exact h2 _ rfl rfl (by intro hy; cases hy)
    · rw [Function.update_of_ne hqx, Function.update_of_ne hqx]
      refine (h.each q hx).move _ (he q).symm (hi q).symm ?_ (by intro hy; cases hy) fun _ hb => hb
      intro hy
      cases c with
      | wait k => exact absurd (show q < 1 from hy) (by omega)
      | fill => cases hy
  | flushSend ix c hpc hi =>
    have h0 : 0 < ix := by have := h.started; rw [hpc] at this; exact this
    refine h.askProc (r := .finished) h0 _ (by rw [hpc]; intro q; rfl) (fun q => rfl) (by rw [hpc]; intro q; rfl)
      (fun q => rfl) ?_ ?_ (by intro hy; cases hy) ⟨h0, hi⟩ (by simp)
    · cases c with
      | wait k => exact Nat.lt_irrefl ix
      | fill => exact id
    · rw [hpc]
      cases c with
      | wait k => exact fun _ _ hy => hy
      | fill => intro _ _ hy; cases hy
  | flushEnd ix c hpc hi =>
    refine h.move st.fs st.fileStore _ (by rw [hpc]; intro q; cases c <;> rfl) (by rw [hpc]; intro q; cases c <;> rfl) ?_
      (by intro hy; cases c <;> cases hy) (by cases c <;> trivial) (by intro hy; cases c <;> cases hy) (fun _ hb => hb) h.distinct
    intro q hq hy
    rw [hpc]
    cases c with
    | wait k => exact Nat.lt_of_lt_of_le hq (by omega)
    | fill => cases hy
  | flushRecv ix c hpc bs rest ho a ha =>
    refine ⟨h.pos, fun q hx => ?_, Nat.succ_pos ix, h.queue, fun hx => (by cases hx), h.distinct⟩
    simp only [State.setProc]
    have hi : ∀ q, st.pc.inflight q = [] := by rw [hpc]; intro q; rfl
    by_cases hqx : q = ix
    · subst hqx
      rw [Function.update_self, Function.update_self]
      obtain ⟨a', h1, h2⟩ := (h.each q hx).recvFinished (by rw [hpc]; exact if_pos rfl) (hi q) ho
      rw [ha] at h1
      cases h1
      exact h2 _ rfl rfl (by intro hy; cases hy)
    · rw [Function.update_of_ne hqx, Function.update_of_ne hqx]
      refine (h.each q hx).move _ ?_ (hi q).symm ?_ (by intro hy; cases hy) fun _ hb => hb
      · rw [hpc]
        exact (if_neg hqx).symm
      intro hy
      rw [hpc]
      cases c with
      | wait k => exact Nat.lt_of_le_of_ne (Nat.lt_succ_iff.1 hy) hqx
      | fill => cases hy
  | waited k hpc hw =>
    exact h.move st.fs st.fileStore _ (by rw [hpc]; intro q; rfl) (by rw [hpc]; intro q; rfl)
      (by intro _ _ hx; rw [hpc]; trivial) (fun _ => hw) trivial (by intro hx; cases hx) (fun _ hb => hb) h.distinct
  | waitOn k hpc =>
    exact h.move st.fs st.fileStore _ (by rw [hpc]; intro q; rfl) (by rw [hpc]; intro q; rfl)
      (by intro _ _ hx; cases hx) (by intro hx; cases hx) trivial (by intro hx; cases hx) (fun _ hb => hb) h.distinct
  | ready hpc =>
    refine ⟨h.pos, fun q hx => ?_, Nat.one_pos, ?_, fun hx => (by cases hx), h.distinct⟩
    · simp only [readyStep, pushIdle, State.setProc]
      have he : ∀ q, st.pc.expects q = none := by rw [hpc]; intro q; rfl
      have hi : ∀ q, st.pc.inflight q = [] := by rw [hpc]; intro q; rfl
      rw [List.count_append, List.count_append, List.count_replicate, List.count_replicate]
      by_cases hqx : q = 0
      · subst hqx
        rw [Function.update_self]
        simp only [beq_self_eq_true, if_true]
        exact (h.each 0 hx).readyLocal (he 0) rfl (hi 0).symm (by intro hy; cases hy)
      · rw [Function.update_of_ne hqx]
        have : ((0 : Nat) == q) = false := by simpa using Ne.symm hqx
        simp only [this, Bool.false_eq_true, if_false, Nat.add_zero]
        exact (h.each q hx).move _ (he q).symm (hi q).symm (by intro hy; cases hy) (by intro hy; cases hy) fun _ hb => hb
    · intro q hq
      simp only [readyStep, pushIdle, State.setProc, List.mem_append, List.mem_replicate] at hq
      have hpos := h.pos
      have := h.queue q
      simp only [List.mem_append] at this
      show q < st.nprocs
      rcases hq with (h1 | h1) | h1 | h1
      · exact this (Or.inl h1)
      · rw [h1.2]; exact hpos
      · exact this (Or.inr h1)
      · rw [h1.2]; exact hpos
  | readySend ix hpc hi =>
    have h0 : 0 < ix := by have := h.started; rw [hpc] at this; exact this
    exact h.askProc (r := .ready) h0 _ (by rw [hpc]; intro q; rfl) (fun q => rfl) (by rw [hpc]; intro q; rfl)
      (fun q => rfl) id (by intro _ _ hy; cases hy) (by intro hy; cases hy) ⟨h0, hi⟩ (by simp)
  | readyEnd ix hpc hi =>
    exact h.move st.fs st.fileStore _ (by rw [hpc]; intro q; rfl) (by rw [hpc]; intro q; rfl)
      (by intro _ _ hx; cases hx) (by intro hx; cases hx) trivial (by intro hx; cases hx) (fun _ hb => hb) h.distinct
  | readyRecv ix hpc n rest ho =>
    have hst : 0 < ix ∧ ix < st.nprocs := by have := h.started; rw [hpc] at this; exact this
    refine ⟨h.pos, fun q hx => ?_, Nat.succ_pos ix, ?_, fun hx => (by cases hx), h.distinct⟩
    · simp only [pushIdle, State.setProc]
      have hi : ∀ q, st.pc.inflight q = [] := by rw [hpc]; intro q; rfl
      rw [List.count_append, List.count_append, List.count_replicate, List.count_replicate]
      by_cases hqx : q = ix
      · subst hqx
        rw [Function.update_self]
        simp only [beq_self_eq_true, if_true]
        exact (h.each q hx).recvReady (by rw [hpc]; exact if_pos rfl) ho rfl (hi q).symm (by intro hy; cases hy)
      · rw [Function.update_of_ne hqx]
        have : (ix == q) = false := by simpa using Ne.symm hqx
        simp only [this, Bool.false_eq_true, if_false, Nat.add_zero]
        refine (h.each q hx).move _ ?_ (hi q).symm (by intro hy; cases hy) (by intro hy; cases hy) fun _ hb => hb
        rw [hpc]
        exact (if_neg hqx).symm
    · intro q hq
      simp only [pushIdle, State.setProc, List.mem_append, List.mem_replicate] at hq
      have := h.queue q
      simp only [List.mem_append] at this
      show q < st.nprocs
      rcases hq with (h1 | h1) | h1 | h1
      · exact this (Or.inl h1)
      · rw [h1.2]; exact hst.2
      · exact this (Or.inr h1)
      · rw [h1.2]; exact hst.2
  | fillOn hpc =>
    exact h.move st.fs st.fileStore _ (by rw [hpc]; intro q; rfl) (by rw [hpc]; intro q; rfl)
      (by intro _ _ hx; cases hx) (by intro hx; cases hx) trivial (by intro hx; cases hx) (fun _ hb => hb) h.distinct
  | filled hpc hq =>
    exact h.move st.fs st.fileStore _ (by rw [hpc]; intro q; rfl) (by rw [hpc]; intro q; rfl)
      (by intro _ _ hx; cases hx) (by intro hx; cases hx) trivial (fun _ => by tauto) (fun _ hb => hb) h.distinct
  | saveNone k hpc hf =>
    refine h.move st.fs st.fileStore _ (by rw [hpc]; intro q; cases k <;> rfl) (by rw [hpc]; intro q; cases k <;> rfl)
      ?_ ?_ (by cases k <;> first | trivial | exact Nat.one_pos) (by intro hx; cases k <;> cases hx) (fun _ hb => hb)
      h.distinct
    · intro q hq hx
      rw [hpc]
      cases k with
      | assign => cases hx
      | config => exact (by simp [Pc.calm])
      | exit => exact (by simp [Pc.calm])
    · intro hx q hq
      refine (h.each q hq).quiet ?_
      rw [hpc]
      cases k with
      | assign => cases hx
      | config => exact (by simp [Pc.quiet])
      | exit => exact (by simp [Pc.quiet])
  | saveLost k hpc f hf hl =>
    refine (h.proc ((h.each 0 h.pos).setStatic ⟨[], []⟩)).move st.fs st.fileStore (.saveSend 1 k) ?_ ?_ ?_ ?_ Nat.one_pos
      (by intro hx; cases hx) (fun _ hb => hb) h.distinct
    · intro q; show _ = st.pc.expects q; rw [hpc]; rfl
    · intro q; show _ = st.pc.inflight q; rw [hpc]; rfl
    · intro q _ hx; show st.pc.calm q; rw [hpc]; exact hx
    · intro hx q hq
      refine (h.each q hq).quiet ?_
      rw [hpc]
      exact hx
  | saveStart k hpc f hf hv d hd id hid =>
    refine (h.proc ((h.each 0 h.pos).setStatic ⟨[], []⟩)).move st.fs st.fileStore (.write _ 0 k) ?_ ?_ ?_ ?_ trivial
      (by intro hx; cases hx) (fun _ hb => hb) h.distinct
    · intro q; show _ = st.pc.expects q; rw [hpc]; rfl
    · intro q; show _ = st.pc.inflight q; rw [hpc]; rfl
    · intro q _ hx; show st.pc.calm q; rw [hpc]; exact hx
    · intro hx q hq
      refine (h.each q hq).quiet ?_
      rw [hpc]
      exact hx
  | saveSend ix k hpc hi =>
    have h0 : 0 < ix := by have := h.started; rw [hpc] at this; exact this
    refine h.askProc (r := .save) h0 _ (by rw [hpc]; intro q; rfl) (fun q => rfl) (by rw [hpc]; intro q; rfl)
      (fun q => rfl) (fun hx => hx.2 rfl) ?_ ?_ ⟨h0, hi⟩ (by simp)
    · rw [hpc]
      exact fun _ _ hy => hy.1
    · intro hx q hq
      refine (h.each q hq).quiet ?_
      rw [hpc]
      exact hx
  | saveEnd ix k hpc hi =>
    refine h.move st.fs st.fileStore _ (by rw [hpc]; intro q; cases k <;> rfl) (by rw [hpc]; intro q; cases k <;> rfl)
      ?_ ?_ (by cases k <;> first | trivial | exact Nat.one_pos) (by intro hx; cases k <;> cases hx) (fun _ hb => hb)
      h.distinct
    · intro q hq hx
      rw [hpc]
      cases k with
      | assign => cases hx
      | config => exact (by simp [Pc.calm])
      | exit => exact (by simp [Pc.calm])
    · intro hx q hq
      refine (h.each q hq).quiet ?_
      rw [hpc]
      cases k with
      | assign => cases hx
      | config => exact (by simp [Pc.quiet])
      | exit => exact (by simp [Pc.quiet])
  | recvLost ix k hpc s rest ho f hf hl =>
    refine ⟨h.pos, fun q hx => ?_, Nat.succ_pos ix, h.queue, fun hx => (by cases hx), h.distinct⟩
    simp only [State.setProc]
    have hi : ∀ q, st.pc.inflight q = [] := by rw [hpc]; intro q; rfl
    have hqu : (Pc.saveSend (ix + 1) k).quiet → st.assigned q = [] := fun hy =>
      (h.each q hx).quiet (by rw [hpc]; exact hy)
    by_cases hqx : q = ix
    · subst hqx
      rw [Function.update_self]
      exact (h.each q hx).recvSave (by rw [hpc]; exact if_pos rfl) ho rfl (hi q).symm hqu
    · rw [Function.update_of_ne hqx]
      refine (h.each q hx).move _ ?_ (hi q).symm ?_ hqu fun _ hb => hb
      · rw [hpc]
        exact (if_neg hqx).symm
      · rw [hpc]
        exact fun hy => ⟨hy, hqx⟩
  | recvStart ix k hpc s rest ho f hf hv d hd id hid =>
    refine ⟨h.pos, fun q hx => ?_, trivial, h.queue, fun hx => (by cases hx), h.distinct⟩
    simp only [State.setProc]
    have hi : ∀ q, st.pc.inflight q = [] := by rw [hpc]; intro q; rfl
    have hqu : (Pc.write (FileStore.saveWrites id s) ix k).quiet → st.assigned q = [] := fun hy =>
      (h.each q hx).quiet (by rw [hpc]; exact hy)
    by_cases hqx : q = ix
    · subst hqx
      rw [Function.update_self]
      exact (h.each q hx).recvSave (by rw [hpc]; exact if_pos rfl) ho rfl (hi q).symm hqu
    · rw [Function.update_of_ne hqx]
      refine (h.each q hx).move _ ?_ (hi q).symm ?_ hqu fun _ hb => hb
      · rw [hpc]
        exact (if_neg hqx).symm
      · rw [hpc]
        exact fun hy => ⟨hy, hqx⟩
  | writeEnd ix k hpc =>
    exact h.move st.fs st.fileStore _ (by rw [hpc]; intro q; rfl) (by rw [hpc]; intro q; rfl)
      (by intro _ _ hx; rw [hpc]; exact hx) (fun hx q hq => (h.each q hq).quiet (by rw [hpc]; exact hx)) (Nat.succ_pos ix)
      (by intro hx; cases hx) (fun _ hb => hb) h.distinct
  | writeLost ix k n c ws hpc hl =>
    exact h.move st.fs st.fileStore _ (by rw [hpc]; intro q; rfl) (by rw [hpc]; intro q; rfl)
      (by intro _ _ hx; rw [hpc]; exact hx) (fun hx q hq => (h.each q hq).quiet (by rw [hpc]; exact hx)) trivial
      (by intro hx; cases hx) (fun _ hb => hb) h.distinct
  | write ix k n c ws hpc f hf d hd =>
    exact h.move _ st.fileStore _ (by rw [hpc]; intro q; rfl) (by rw [hpc]; intro q; rfl)
      (by intro _ _ hx; rw [hpc]; exact hx) (fun hx q hq => (h.each q hq).quiet (by rw [hpc]; exact hx)) trivial
      (by intro hx; cases hx) (fun _ hb => hb) h.distinct
  | newStoreInvalid hpc c rest ht hd =>
    exact h.move st.fs _ _ (by rw [hpc]; intro q; rfl) (by rw [hpc]; intro q; rfl)
      (by intro _ _ hx; rw [hpc]; exact hx) (fun hx q hq => (h.each q hq).quiet (by rw [hpc]; exact hx)) trivial
      (by intro hx; cases hx) (fun _ hb => hb) h.distinct
  | newStore hpc c rest ht d hd r hr =>
    exact h.move st.fs _ _ (by rw [hpc]; intro q; rfl) (by rw [hpc]; intro q; rfl)
      (by intro _ _ hx; rw [hpc]; exact hx) (fun hx q hq => (h.each q hq).quiet (by rw [hpc]; exact hx)) trivial
      (by intro hx; cases hx) (fun _ hb => hb) h.distinct
  | update hpc c rest ht =>
    have hk := (h.each 0 h.pos).known_zero (by rw [hpc]; rfl) ((h.each 0 h.pos).quiet (by rw [hpc]; trivial))
    refine (h.proc ((h.each 0 h.pos).update hk c)).move st.fs st.fileStore (.configSend 1) ?_ ?_ ?_ ?_ Nat.one_pos
      (by intro hx; cases hx) (fun _ hb => hb) h.distinct
    · intro q; show _ = st.pc.expects q; rw [hpc]; rfl
    · intro q; show _ = st.pc.inflight q; rw [hpc]; rfl
    · intro q _ hx; show st.pc.calm q; rw [hpc]; trivial
    · intro hx q hq
      exact (h.each q hq).quiet (by rw [hpc]; trivial)
  | configSend ix hpc c rest ht hi =>
    have h0 : 0 < ix := by have := h.started; rw [hpc] at this; exact this
    refine h.tellProc h0 (PerProc.not_req (by simp) (by simp) (by simp)) (fun _ => rfl) rfl _
      (by rw [hpc]; exact Nat.le_refl ix) (by rw [hpc]; trivial)
      (by rw [hpc]; intro q; rfl) (fun q => rfl) (by rw [hpc]; intro q; rfl)
      (fun q => rfl) (Nat.not_succ_le_self ix) ?_ (Nat.succ_pos ix) (by simp)
    rw [hpc]
    exact fun q _ hy => Nat.le_of_succ_le hy
  | configEnd ix hpc c rest ht hi =>
    have hasg : ∀ q, q < st.nprocs → st.assigned q = [] := fun q hq => (h.each q hq).quiet (by rw [hpc]; trivial)
    have hd := h.distinct
    rw [ht] at hd
    refine ⟨h.pos, fun q hx => ?_, trivial, h.queue, fun hx => (by cases hx), hd⟩
    have h1 : PerProc Pc.main (st.cpuQueue.count q) (st.openclQueue.count q) (st.assigned q) [] q (st.procs q) := by
      refine (h.each q hx).move _ ?_ ?_ (by intro hy; cases hy) (by intro hy; cases hy) (by simp)
      · rw [hpc]; rfl
      · rw [hpc]; rfl
    refine ⟨h1.ok, h1.sorted, h1.ledger, h1.zero, h1.prot, h1.config, h1.head, h1.calm, h1.quiet, ?_, h1.own⟩
    intro b _
    show b ∉ st.assigned q ∧ _
    rw [hasg q hx]
    exact ⟨by simp, by simp [Pc.inflight]⟩
  | skip hpc b rest ht f hf hc =>
    have hd := h.distinct
    rw [ht] at hd
    exact h.move st.fs st.fileStore _ (by rw [hpc]; intro q; rfl) (by rw [hpc]; intro q; rfl)
      (by intro _ _ hx; cases hx) (by intro hx; cases hx) trivial (by intro hx; cases hx)
      (fun x hb => by rw [ht]; exact List.mem_cons_of_mem _ hb) hd.2
  | fill hpc b rest ht f hf hc =>
    exact h.move st.fs st.fileStore _ (by rw [hpc]; intro q; rfl) (by rw [hpc]; intro q; rfl)
      (by intro _ _ hx; cases hx) (by intro hx; cases hx) trivial (by intro hx; cases hx) (fun _ hb => hb) h.distinct
  | noFill hpc b rest ht f hf hc ho =>
    exact h.move st.fs st.fileStore _ (by rw [hpc]; intro q; rfl) (by rw [hpc]; intro q; rfl)
      (by intro _ _ hx; cases hx) (by intro hx; cases hx) trivial (fun _ => Or.inr ho) (fun _ hb => hb) h.distinct
  | takeLocal hpc b rest ht o cq oq hq r hr =>
    have hd := h.distinct
    rw [ht] at hd
    have he : ∀ q, st.pc.expects q = none := by rw [hpc]; intro q; rfl
    have hi : ∀ q, st.pc.inflight q = [] := by rw [hpc]; intro q; rfl
    have hcount : ∀ q, st.cpuQueue.count q = cq.count q + (if q = 0 ∧ o = false then 1 else 0) ∧
        st.openclQueue.count q = oq.count q + if q = 0 ∧ o = true then 1 else 0 := by
      intro q
      have hc : ∀ l : List Nat, (0 :: l).count q = l.count q + if q = 0 then 1 else 0 := fun l => by
        rw [List.count_cons]
        by_cases hq0 : q = 0
        · rw [hq0]; simp
        · rw [if_neg hq0, if_neg (by simpa using Ne.symm hq0)]
      rcases hq with ⟨rfl, h1, h2⟩ | ⟨rfl, h1, h2⟩ <;> rw [h1, h2, hc] <;> simp
    refine ⟨h.pos, fun q hx => ?_, trivial, ?_, fun hx => (by cases hx), hd.2⟩
    · simp only [State.setProc]
      have hb : b ∈ lead st.todo := by rw [ht]; exact List.mem_cons_self
      have hld : ∀ x ∈ lead rest, x ∈ lead st.todo ∧ x ≠ b := fun x hxr => by
        rw [ht]
        exact ⟨List.mem_cons_of_mem _ hxr, fun hxb => hd.1 (hxb ▸ hxr)⟩
      by_cases hqx : q = 0
      · subst hqx
        rw [Function.update_self]
        obtain ⟨r', h1, _, h2⟩ := (h.each 0 hx).passLocal (o := o) (b := b) (cpu' := cq.count 0) (ocl' := oq.count 0)
          (by rw [(hcount 0).1]; simp) (by rw [(hcount 0).2]; simp) (he 0) (hi 0) ((h.each 0 hx).fresh b hb).1
        rw [hr] at h1
        cases h1
        exact h2 _ _ rfl rfl (by intro hy; cases hy) hld
      · rw [Function.update_of_ne hqx]
        have h3 := (hcount q).1
        have h4 := (hcount q).2
        simp only [hqx, false_and, if_false, Nat.add_zero] at h3 h4
        have := (h.each q hx).move (.notify r.2 b) (ld' := lead rest) (he q).symm
          (by rw [hi]; exact if_neg hqx) (by intro hy; cases hy) (by intro hy; cases hy) fun x hb => (hld x hb).1
        rw [h3, h4] at this
        exact this
    · intro q hq'
      refine h.queue q ?_
      simp only [List.mem_append] at hq' ⊢
      rcases hq with ⟨rfl, h1, h2⟩ | ⟨rfl, h1, h2⟩
      · rw [h1]; rw [h2] at hq'; exact hq'.imp_right (List.mem_cons_of_mem _)
      · rw [h1]; rw [h2] at hq'; exact hq'.imp_left (List.mem_cons_of_mem _)
  | takeRemote hpc b rest ht o ix hix cq oq hq =>
    have hd := h.distinct
    rw [ht] at hd
    have he : ∀ q, st.pc.expects q = none := by rw [hpc]; intro q; rfl
    have hi : ∀ q, st.pc.inflight q = [] := by rw [hpc]; intro q; rfl
    have hcount : ∀ q, st.cpuQueue.count q = cq.count q + (if q = ix ∧ o = false then 1 else 0) ∧
        st.openclQueue.count q = oq.count q + if q = ix ∧ o = true then 1 else 0 := by
      intro q
      have hc : ∀ l : List Nat, (ix :: l).count q = l.count q + if q = ix then 1 else 0 := fun l => by
        rw [List.count_cons]
        by_cases hq0 : q = ix
        · rw [hq0]; simp
        · rw [if_neg hq0, if_neg (by simpa using Ne.symm hq0)]
      rcases hq with ⟨rfl, h1, h2⟩ | ⟨rfl, h1, h2⟩ <;> rw [h1, h2, hc] <;> simp
    have hixn : ix < st.nprocs := by
      refine h.queue ix ?_
      rcases hq with ⟨rfl, h1, h2⟩ | ⟨rfl, h1, h2⟩ <;> rw [h1] <;> simp
    refine ⟨h.pos, fun q hx => ?_, hixn, ?_, fun hx => (by cases hx), hd.2⟩
    · simp only [State.send, State.setProc]
      have hb : b ∈ lead st.todo := by rw [ht]; exact List.mem_cons_self
      have hld : ∀ x ∈ lead rest, x ∈ lead st.todo ∧ x ≠ b := fun x hxr => by
        rw [ht]
        exact ⟨List.mem_cons_of_mem _ hxr, fun hxb => hd.1 (hxb ▸ hxr)⟩
      by_cases hqx : q = ix
      · subst hqx
        rw [Function.update_self]
        exact (h.each q hx).pass hix (o := o) (b := b) (cpu' := cq.count q) (ocl' := oq.count q)
          (by rw [(hcount q).1]; simp) (by rw [(hcount q).2]; simp) (he q) rfl (hi q) (if_pos rfl)
          (by intro hy; cases hy) (by intro hy; cases hy) hld ((h.each q hx).fresh b hb).1
      · rw [Function.update_of_ne hqx]
        have h3 := (hcount q).1
        have h4 := (hcount q).2
        simp only [hqx, false_and, if_false, Nat.add_zero] at h3 h4
        have := (h.each q hx).move (.insert ix b) (ld' := lead rest) (he q).symm
          (by rw [hi]; exact if_neg hqx) (by intro hy; cases hy) (by intro hy; cases hy) fun x hb => (hld x hb).1
        rw [h3, h4] at this
        exact this
    · intro q hq'
      refine h.queue q ?_
      simp only [List.mem_append] at hq' ⊢
      rcases hq with ⟨rfl, h1, h2⟩ | ⟨rfl, h1, h2⟩
      · rw [h1]; rw [h2] at hq'; exact hq'.imp_right (List.mem_cons_of_mem _)
      · rw [h1]; rw [h2] at hq'; exact hq'.imp_left (List.mem_cons_of_mem _)
  | notify i b hpc =>
    refine (h.proc ((h.each 0 h.pos).wake i)).move st.fs st.fileStore (.insert 0 b) ?_ ?_ ?_ ?_ h.pos
      (by intro hx; cases hx) (fun _ hb => hb) h.distinct
    · intro q; show _ = st.pc.expects q; rw [hpc]; rfl
    · intro q; show _ = st.pc.inflight q; rw [hpc]; rfl
    · intro q _ hx; cases hx
    · intro hx; cases hx
  | insert ix b hpc =>
    refine ⟨h.pos, fun q hx => ?_, trivial, h.queue, fun hx => (by cases hx), h.distinct⟩
    show PerProc Pc.main _ _ (Function.update st.assigned ix _ q) _ q _
    by_cases hqx : q = ix
    · subst hqx
      rw [Function.update_self]
      exact (h.each q hx).insert (by rw [hpc]; exact if_pos rfl) (by rw [hpc]; rfl) rfl id id
    · rw [Function.update_of_ne hqx]
      refine (h.each q hx).move _ (by rw [hpc]; rfl) ?_ (by intro hy; cases hy) (by intro hy; cases hy) fun _ hb => hb
      rw [hpc]
      exact (if_neg hqx).symm
  | stopSend ix hpc hi =>
    have h0 : 0 < ix := by have := h.started; rw [hpc] at this; exact this
    refine h.tellProc h0 (PerProc.not_req (by simp) (by simp) (by simp)) (fun _ => rfl) rfl _
      (by rw [hpc]; exact Nat.le_refl ix) (by rw [hpc]; trivial)
      (by rw [hpc]; intro q; rfl) (fun q => rfl) (by rw [hpc]; intro q; rfl)
      (fun q => rfl) (Nat.not_succ_le_self ix) ?_ (Nat.succ_pos ix) (by simp)
    rw [hpc]
    exact fun q _ hy => Nat.le_of_succ_le hy
  | stopEnd ix hpc hi =>
    exact h.move st.fs st.fileStore _ (by rw [hpc]; intro q; rfl) (by rw [hpc]; intro q; rfl)
      (by intro _ _ hx; cases hx) (fun hx q hq => (h.each q hq).quiet (by rw [hpc]; exact hx)) trivial
      (by intro hx; cases hx) (fun _ hb => hb) h.distinct
  | shutdown i hpc hi =>
    refine (h.proc ((h.each 0 h.pos).stop i)).move st.fs st.fileStore (.shutNotify i) ?_ ?_ ?_ ?_ trivial
      (by intro hx; cases hx) (fun _ hb => hb) h.distinct
    · intro q; show _ = st.pc.expects q; rw [hpc]; rfl
    · intro q; show _ = st.pc.inflight q; rw [hpc]; rfl
    · intro q _ hx; cases hx
    · exact fun hx q hq => (h.each q hq).quiet (by rw [hpc]; exact hx)
  | shutdownEnd i hpc hi =>
    exact h.move st.fs st.fileStore _ (by rw [hpc]; intro q; rfl) (by rw [hpc]; intro q; rfl)
      (by intro _ _ hx; cases hx) (fun hx q hq => (h.each q hq).quiet (by rw [hpc]; exact hx)) trivial
      (by intro hx; cases hx) (fun _ hb => hb) h.distinct
  | shutNotify i hpc =>
    refine (h.proc ((h.each 0 h.pos).wake i)).move st.fs st.fileStore (.join i) ?_ ?_ ?_ ?_ trivial
      (by intro hx; cases hx) (fun _ hb => hb) h.distinct
    · intro q; show _ = st.pc.expects q; rw [hpc]; rfl
    · intro q; show _ = st.pc.inflight q; rw [hpc]; rfl
    · intro q _ hx; cases hx
    · exact fun hx q hq => (h.each q hq).quiet (by rw [hpc]; exact hx)
  | join i hpc hp =>
    exact h.move st.fs st.fileStore _ (by rw [hpc]; intro q; rfl) (by rw [hpc]; intro q; rfl)
      (by intro _ _ hx; cases hx) (fun hx q hq => (h.each q hq).quiet (by rw [hpc]; exact hx)) trivial
      (by intro hx; cases hx) (fun _ hb => hb) h.distinct

theorem Inv.trans {env : Env} {st st' : State} (h : Inv st) (hs : Trans env st st') : Inv st' := by
  cases hs with
  | thread ix hx i hi p ht => exact h.proc ((h.each ix hx).thread hi ht)
  | worker ix h0 hx p hw => exact h.proc ((h.each ix hx).worker hw)
  | master st' hm => exact h.master hm

theorem Inv.initial {kinds : List (List Bool)} (h0 : kinds ≠ []) (hk : ∀ k ∈ kinds, k.length < 4294967296)
    (fs : FileSystem) {todo : List Cmd} (hd : Distinct todo) : Inv (initial kinds fs todo) := by
  refine ⟨List.length_pos_iff.2 h0, fun q hq => ?_, trivial, by simp [Mpi.initial], fun hx => (by cases hx), hd⟩
  have hlen : (kinds[q]?.getD []).length < 4294967296 := by
    have hq' : q < kinds.length := hq
    rw [List.getElem?_eq_getElem hq']
    exact hk _ (List.getElem_mem hq')
  refine ⟨?_, List.Pairwise.nil, ?_, fun _ => rfl, ?_, ?_, ?_, fun hx => (by cases hx), fun _ => rfl, ?_, ?_⟩
  · exact Proc.Ok.initial hlen
  · intro b; simp [Mpi.initial, Proc.held, Proc.inBlocks, Proc.known, Proc.initial, Pc.inflight]
  · exact ⟨by simp [Mpi.initial, Proc.initial], rfl, rfl, rfl⟩
  · intro c hc; cases hc
  · intro c ms hc; cases hc
  · intro b hb
    exact ⟨by simp [Mpi.initial], by simp [Mpi.initial, Pc.inflight]⟩
  · intro b hb; cases hb

theorem Inv.reachable {env : Env} {st₀ st : State} (h₀ : Inv st₀) (h : Reachable env st₀ st) : Inv st := by
  induction h with
  | refl => exact h₀
  | step l _ hs ih => exact ih.trans (step_trans hs)

end Mpi
end Hycu
