import Verif.Js.ChatLemmas
import Verif.Props.JsCatalogTrack

/-!
# Property C114: chat in the browser
-/

set_option autoImplicit false

namespace Verif.Props.JsChat

open Verif Verif.Js Verif.Js.Chat

open Verif.Props.JsTrack (Prompt Quiet FrameWaits)

/-! ## Specification -/

/-- A message, when it was published, and how long it is to be kept. -/
structure Msg where
  text : JsString
  time : Nat
  ttl : Option Nat
  deriving DecidableEq

/-- What happened. -/
structure Past where
  now : Nat
  ttl : Option Nat
  /-- the messages and, as nothing, their removals, in order -/
  entries : List (Option JsString)
  /-- the last message that was published -/
  last : Option Msg
  /-- since then, `close` was called or a timer ran -/
  stopped : Bool

def Past.next (x : Past) : Op × Out → Past
  | (.publish m, _) => { x with entries := x.entries ++ [some m], last := some ⟨m, x.now, x.ttl⟩, stopped := false }
  | (.clear, _) => { x with entries := x.entries ++ [none] }
  | (.close, _) => { x with stopped := true }
  | (.setTtl ttl, _) => { x with ttl := ttl }
  | (.tick n, _) => { x with now := x.now + n }
  | (.fire _, .ok) => { x with entries := x.entries ++ [none], stopped := true }
  | (.fire _, _) => x
  | (.read _, _) => x

def past (ttl : Option Nat) (tr : Trace) : Past := tr.foldl Past.next ⟨0, ttl, [], none, false⟩

/-! ## Lemmas -/

theorem past_snoc (ttl : Option Nat) (tr : Trace) (e : Op × Out) : past ttl (tr ++ [e]) = (past ttl tr).next e := by
  unfold past
  rw [List.foldl_append]
  rfl

/-- When the timer is due. -/
def deadline (x : Past) : Option Nat :=
  if x.stopped then none
  else
    match x.last with
    | none => none
    | some m =>
      match m.ttl with
      | none => none
      | some t => if t = 0 then none else some (m.time + t)

/-- State and history. -/
structure Agree (x : Past) (s : State) : Prop where
  now : s.now = x.now
  ttl : s.ttl = x.ttl
  inv : Inv x.entries s
  timer : (deadline x = none ∧ s.timers = []) ∨ ∃ d i, deadline x = some d ∧ s.timers = [(i, d)] ∧ s.expires = some i
  shown : ∀ m, x.entries.getLast? = some (some m) → ∃ y, x.last = some y ∧ y.text = m

theorem clearTimer_none {x : Past} {s : State} (a : Agree x s) : (clearTimer s).timers = [] := by
  unfold clearTimer
  rcases a.timer with ⟨-, h⟩ | ⟨d, i, -, h, h'⟩
  · split
    · exact h
    · simp [h]
  · rw [h']
    simp [h]

theorem arm_timer {t : State} (h : t.timers = []) (x : Past) (m : JsString) (hn : t.now = x.now) (htt : t.ttl = x.ttl)
    (es : List (Option JsString)) :
    (deadline { x with entries := es, last := some ⟨m, x.now, x.ttl⟩, stopped := false } = none ∧ (arm t).timers = []) ∨
    ∃ d i, deadline { x with entries := es, last := some ⟨m, x.now, x.ttl⟩, stopped := false } = some d ∧
      (arm t).timers = [(i, d)] ∧ (arm t).expires = some i := by
  unfold deadline arm
  rw [htt]
  simp only [Bool.false_eq_true, if_false]
  cases x.ttl with
  | none => exact .inl ⟨rfl, h⟩
  | some k =>
    dsimp only
    by_cases hk : k = 0
    · rw [if_pos hk, if_pos hk]
      exact .inl ⟨rfl, h⟩
    · rw [if_neg hk, if_neg hk]
      exact .inr ⟨_, t.fresh, rfl, by simp [h, hn], rfl⟩

theorem arm_now (t : State) : (arm t).now = t.now ∧ (arm t).ttl = t.ttl := by
  unfold arm
  split
  · exact ⟨rfl, rfl⟩
  · split <;> exact ⟨rfl, rfl⟩

/-- Which timers can run. -/
theorem fire_iff {x : Past} {s : State} (a : Agree x s) (i : Nat) :
    s.timers.any (fun t => t.1 == i && decide (t.2 ≤ s.now)) = true ↔
      ∃ d, deadline x = some d ∧ s.timers = [(i, d)] ∧ d ≤ x.now := by
  rw [a.now]
  rcases a.timer with ⟨h1, h2⟩ | ⟨d, j, h1, h2, -⟩
  · rw [h1, h2]
    simp
  · rw [h1, h2]
    simp only [List.any_cons, List.any_nil, Bool.or_false, Bool.and_eq_true, beq_iff_eq, decide_eq_true_eq]
    constructor
    · rintro ⟨rfl, h⟩
      exact ⟨d, rfl, rfl, h⟩
    · rintro ⟨d', h3, h4, h5⟩
      cases h3
      injection h4 with h4
      injection h4 with h4
      exact ⟨h4, h5⟩

theorem step_agree {x : Past} {s : State} (a : Agree x s) (op : Op) :
    Agree (x.next (op, (step s op).1)) (step s op).2 := by
  cases op with
  | publish m =>
    obtain ⟨-, p2, t, p3, p4, p5, -, -, p8⟩ := publish_inv a.inv m
    show Agree { x with entries := x.entries ++ [some m], last := some ⟨m, x.now, x.ttl⟩, stopped := false } (publish m s).2
    refine ⟨?_, ?_, p2, ?_, ?_⟩
    · rw [p3, (arm_now t).1, p4]
      exact a.now
    · rw [p3, (arm_now t).2, p5]
      exact a.ttl
    · rw [p3]
      exact arm_timer (p8.trans (clearTimer_none a)) x m (p4.trans a.now) (p5.trans a.ttl) _
    · intro m' h
      simp at h
      exact ⟨_, rfl, h⟩
  | clear =>
    obtain ⟨-, c2, c3, c4, c5, c6, c7⟩ := clear_inv a.inv
    show Agree { x with entries := x.entries ++ [none] } (clear s).2
    refine ⟨c3.trans a.now, c4.trans a.ttl, c2, ?_, fun m h => by simp at h⟩
    rw [c7, c5]
    exact a.timer
  | close =>
    show Agree { x with stopped := true } (clearTimer (closeGroup s))
    obtain ⟨g1, g2, g3, g4, g5, g6⟩ := closeGroup_same s
    obtain ⟨k1, k2, k3, k4, k5, k6, k7⟩ := clearTimer_same (closeGroup s)
    refine ⟨k4.trans (g2.trans a.now), k5.trans (g3.trans a.ttl), a.inv.closing.1.frame k1 k2 k3, .inl ⟨rfl, ?_⟩, a.shown⟩
    have := clearTimer_none a
    unfold clearTimer at this ⊢
    rw [g4]
    split
    · next h => rw [h] at this; exact g5.trans this
    · next h => rw [h] at this; dsimp only at this ⊢; rw [g5]; exact this
  | setTtl ttl => exact ⟨a.now, rfl, a.inv.frame rfl rfl rfl, a.timer, a.shown⟩
  | tick n => exact ⟨by show s.now + n = x.now + n; rw [a.now], a.ttl, a.inv.frame rfl rfl rfl, a.timer, a.shown⟩
  | fire i =>
    unfold step
    dsimp only
    split
    · next h =>
      obtain ⟨d, h1, h2, h3⟩ := (fire_iff a i).1 h
      have i1 : Inv x.entries { s with timers := s.timers.filter fun t => t.1 != i } := a.inv.frame rfl rfl rfl
      obtain ⟨c1, c2, c3, c4, c5, c6, c7⟩ := clear_inv i1
      rw [c1]
      show Agree { x with entries := x.entries ++ [none], stopped := true } _
      refine ⟨c3.trans a.now, c4.trans a.ttl, c2, .inl ⟨rfl, ?_⟩, fun m h => by simp at h⟩
      rw [c7]
      simp [h2]
    · exact a
  | read op =>
    unfold step
    dsimp only
    split
    · next h => exact ⟨a.now, a.ttl, a.inv.reader op h, a.timer, a.shown⟩
    · exact a

theorem agree_reach {ttl : Option Nat} {tr : Trace} {s : State} (h : (machine ttl).Reach tr s) :
    Agree (past ttl tr) s :=
  Machine.Reach.induct (M := machine ttl) (P := fun tr s => Agree (past ttl tr) s)
    ⟨rfl, rfl, init_inv ttl, .inl ⟨rfl, rfl⟩, fun _ h => (by cases h)⟩
    (fun tr s op _ ih => by
      show Agree (past ttl (tr ++ [(op, _)])) _
      rw [past_snoc]
      exact step_agree ih op) h

/-! ## What is written -/

/-- The track has a group for each message, with the message as its only frame, and an empty group for each removal; all
but the newest group are closed. -/
theorem c114_groups {ttl : Option Nat} {tr : Trace} {s : State} (h : (machine ttl).Reach tr s) :
    Track.accepted s.calls = List.range (past ttl tr).entries.length ∧
    (∀ (g : Nat) m, (past ttl tr).entries[g]? = some (some m) → Track.content s.calls g = [textEncode m]) ∧
    (∀ g : Nat, (past ttl tr).entries[g]? = some none → Track.content s.calls g = []) ∧
    ∀ g, g + 1 < (past ttl tr).entries.length → (.closeGroup g, .ok) ∈ s.calls := by
  have a := agree_reach h
  refine ⟨a.inv.acc, fun g m hg => ?_, fun g hg => ?_, a.inv.ended⟩
  · rw [a.inv.content, hg]
    rfl
  · rw [a.inv.content, hg]
    rfl

/-- After `close`, the newest group is closed, too. -/
theorem c114_closed {ttl : Option Nat} {tr : Trace} {s : State} (h : (machine ttl).Reach tr s) (g : Nat)
    (hg : g < (past ttl tr).entries.length) : (.closeGroup g, .ok) ∈ (step s .close).2.calls := by
  show _ ∈ (clearTimer (closeGroup s)).calls
  rw [(clearTimer_same _).2.1]
  exact (agree_reach h).inv.closing.2 g hg

/-- Nothing throws. -/
theorem c114_written {ttl : Option Nat} {tr : Trace} {s : State} (h : (machine ttl).Reach tr s) (op : Op) :
    (step s op).1 ≠ .threw := by
  have a := agree_reach h
  cases op with
  | publish m =>
    show (publish m s).1 ≠ _
    rw [(publish_inv a.inv m).1]
    simp
  | clear =>
    show (clear s).1 ≠ _
    rw [(clear_inv a.inv).1]
    simp
  | fire i =>
    unfold step
    dsimp only
    split
    · rw [(clear_inv (a.inv.frame (s' := { s with timers := s.timers.filter fun t => t.1 != i }) rfl rfl rfl)).1]
      simp
    · simp
  | read op =>
    unfold step
    dsimp only
    split <;> simp
  | _ => simp [step]

/-! ## Expiry -/

/-- A message that is the newest is removed by a timer only if its own time is over. -/
theorem c114_early {ttl : Option Nat} {tr : Trace} {s : State} (h : (machine ttl).Reach tr s) (m : JsString)
    (hm : (past ttl tr).entries.getLast? = some (some m)) (i : Nat) (hf : (step s (.fire i)).1 ≠ .invalid) :
    ∃ time k, (past ttl tr).last = some ⟨m, time, some k⟩ ∧ k ≠ 0 ∧ time + k ≤ (past ttl tr).now := by
  have a := agree_reach h
  have hany : s.timers.any (fun t => t.1 == i && decide (t.2 ≤ s.now)) = true := by
    unfold step at hf
    dsimp only at hf
    split at hf
    · assumption
    · exact absurd rfl hf
  obtain ⟨d, h1, h2, h3⟩ := (fire_iff a i).1 hany
  obtain ⟨y, hy, hym⟩ := a.shown m hm
  obtain ⟨text, time, k⟩ := y
  dsimp only at hym
  subst hym
  unfold deadline at h1
  rw [hy] at h1
  dsimp only at h1
  split at h1
  · cases h1
  · cases k with
    | none => cases h1
    | some k =>
      dsimp only at h1
      split at h1
      · cases h1
      · next hk =>
        injection h1 with h1
        exact ⟨time, k, hy, hk, by omega⟩

/-- When the time of the last message is over and `close` was not called, its timer can run, and then the newest group is
empty. -/
theorem c114_expires {ttl : Option Nat} {tr : Trace} {s : State} (h : (machine ttl).Reach tr s) (m : JsString)
    (time k : Nat) (hl : (past ttl tr).last = some ⟨m, time, some k⟩) (hk : k ≠ 0) (hs : (past ttl tr).stopped = false)
    (hd : time + k ≤ (past ttl tr).now) :
    ∃ i, (step s (.fire i)).1 = .ok ∧ (past ttl (tr ++ [(.fire i, .ok)])).entries = (past ttl tr).entries ++ [none] := by
  have a := agree_reach h
  have hdl : deadline (past ttl tr) = some (time + k) := by
    unfold deadline
    rw [hs, hl]
    simp [hk]
  rcases a.timer with ⟨h1, -⟩ | ⟨d, i, h1, h2, -⟩
  · rw [hdl] at h1; cases h1
  · rw [hdl] at h1
    cases h1
    refine ⟨i, ?_, by rw [past_snoc]; rfl⟩
    have := (fire_iff a i).2 ⟨_, hdl, h2, hd⟩
    unfold step
    dsimp only
    rw [if_pos this]
    exact (clear_inv (a.inv.frame (s' := { s with timers := s.timers.filter fun t => t.1 != i }) rfl rfl rfl)).1

/-- There is never more than one timer. -/
theorem c114_timers {ttl : Option Nat} {tr : Trace} {s : State} (h : (machine ttl).Reach tr s) : s.timers.length ≤ 1 := by
  rcases (agree_reach h).timer with ⟨-, h⟩ | ⟨_, _, -, h, -⟩ <;> rw [h] <;> simp

/-- A violation: a message that is to be kept for 0 ms, and one whose chat is closed, is never removed by a timer. -/
theorem c114_kept {ttl : Option Nat} {tr : Trace} {s : State} (h : (machine ttl).Reach tr s)
    (hz : (past ttl tr).stopped = true ∨ ∃ m time, (past ttl tr).last = some ⟨m, time, some 0⟩) (i : Nat) :
    (step s (.fire i)).1 = .invalid := by
  have a := agree_reach h
  have hdl : deadline (past ttl tr) = none := by
    unfold deadline
    rcases hz with h | ⟨m, time, h⟩
    · rw [h]; rfl
    · rw [h]
      split <;> simp
  have hn : ¬ s.timers.any (fun t => t.1 == i && decide (t.2 ≤ s.now)) = true := by
    rw [fire_iff a]
    rintro ⟨d, hd, -⟩
    rw [hdl] at hd
    cases hd
  unfold step
  dsimp only
  rw [if_neg hn]

/-! ## What readers get -/

/-- A message is read as it was published, if it is well formed and does not start with a byte order mark. -/
theorem c114_text (L : Lossy) (m : String) (h : m.toList.head? ≠ some (Char.ofNat 0xFEFF)) :
    message L (textEncode (ofRust m)) = ofRust m := by
  unfold message
  rw [textEncode_ofRust, textDecode_strBytes L m h]

/-- A reader is given messages that were published, in order, and none twice. -/
theorem c114_read {ttl : Option Nat} {tr : Trace} {s : State} (h : (machine ttl).Reach tr s) (c : Nat) :
    ∃ gs : List (Nat × JsString), gs.Pairwise (fun a b => a.1 < b.1) ∧
      (∀ x ∈ gs, (past ttl tr).entries[x.1]? = some (some x.2)) ∧
      Track.delivered s.calls c = gs.map fun x => (x.1, 0, textEncode x.2) := by
  have a := agree_reach h
  obtain ⟨h1, h2, -⟩ := JsTrack.c94_frames a.inv.reach c
  have key : ∀ d ∈ Track.delivered s.calls c, ∃ m, (past ttl tr).entries[d.1]? = some (some m) ∧ d.2.1 = 0 ∧
      d.2.2 = textEncode m := by
    rintro ⟨g, k, b⟩ hd
    have := (h2 g k b hd).1
    rw [a.inv.content] at this
    dsimp only
    cases hp : (past ttl tr).entries[g]? with
    | none => rw [hp] at this; simp at this
    | some e =>
      rw [hp] at this
      cases e with
      | none => simp [Chat.frames] at this
      | some m =>
        refine ⟨m, rfl, ?_⟩
        cases k with
        | zero => exact ⟨rfl, by simpa [Chat.frames] using this.symm⟩
        | succ k => simp [Chat.frames] at this
  generalize Track.delivered s.calls c = l at h1 key
  clear h2
  induction l with
  | nil => exact ⟨[], .nil, fun _ h => (by cases h), rfl⟩
  | cons d l ih =>
    rw [List.pairwise_cons] at h1
    obtain ⟨gs, g1, g2, g3⟩ := ih h1.2 fun d hd => key d (List.mem_cons_of_mem _ hd)
    obtain ⟨p, p1, p2, p3⟩ := key d (by simp)
    refine ⟨(d.1, p) :: gs, ?_, ?_, ?_⟩
    · rw [List.pairwise_cons]
      refine ⟨fun x hx => ?_, g1⟩
      have hm : (x.1, 0, textEncode x.2) ∈ l := by
        rw [g3]
        exact List.mem_map_of_mem hx
      rcases h1.1 _ hm with h | ⟨-, h⟩
      · exact h
      · simp at h
    · intro x hx
      rcases List.mem_cons.1 hx with rfl | hx
      · exact p1
      · exact g2 x hx
    · rw [List.map_cons, ← g3]
      obtain ⟨d1, d2, d3⟩ := d
      dsimp only at p2 p3
      rw [p2, p3]

theorem newest_get {es : List (Option JsString)} {e : Option JsString} (h : es.getLast? = some e) :
    es[es.length - 1]? = some e := by
  rw [← List.getLast?_eq_getElem?]
  exact h

/-- A reader that waits has been given the newest message, if its fetch got to continue between any two groups.  Missing:
messages in quick succession; see `c114_burst`. -/
theorem c114_newest_partial {ttl : Option Nat} {tr : Trace} {s : State} (h : (machine ttl).Reach tr s) (m : JsString)
    (hm : (past ttl tr).entries.getLast? = some (some m)) (c : Nat)
    (hpr : Prompt s.calls c) (hp : FrameWaits s.track c) (hq : Quiet s.track c)
    (hcl : ¬ Track.Closed s.calls c) (hng : (.nextGroup c, .undefined) ∉ s.calls) :
    ((past ttl tr).entries.length - 1, 0, textEncode m) ∈ Track.delivered s.calls c := by
  have a := agree_reach h
  obtain ⟨h1, h2, -, -⟩ := c114_groups h
  have hlen : (past ttl tr).entries ≠ [] := by
    intro he
    rw [he] at hm
    cases hm
  have hpos := List.length_pos_iff.2 hlen
  have hg : (Track.accepted s.calls).getLast? = some ((past ttl tr).entries.length - 1) := by
    rw [h1, List.getLast?_range]
    simp
    omega
  obtain ⟨-, h4⟩ := JsTrack.c94_frames_newest_partial a.inv.reach c hpr hp hq a.inv.ending hcl hng _ hg
  exact h4 0 (textEncode m) (by rw [h2 _ m (newest_get hm)]; rfl)

/-- No reader that was not closed is told that the chat has ended, `close` or not. -/
theorem c114_endless {ttl : Option Nat} {tr : Trace} {s : State} (h : (machine ttl).Reach tr s) (c : Nat)
    (hcl : ¬ Track.Closed s.calls c) (op : Track.Op) (hop : JsTrack.Call op c) :
    (step s (.read op)).1 ≠ .reader .undefined ∧ (step s (.read op)).1 ≠ .reader .rejected := by
  have a := agree_reach h
  obtain ⟨h1, h2⟩ := JsTrack.c94_end a.inv.reach c op hop
  rw [a.inv.ending] at h1 h2
  unfold step
  dsimp only
  split
  · constructor
    · intro hx
      injection hx with hx
      rcases h1 hx with h3 | h3
      · exact hcl h3
      · cases h3
    · intro hx
      injection hx with hx
      cases h2 hx
  · simp

/-! ## A reader that comes late -/

theorem past_grows (ttl : Option Nat) (tr tr' : Trace) :
    ∃ es, (past ttl (tr ++ tr')).entries = (past ttl tr).entries ++ es := by
  have key : ∀ (x : Past) (e : Op × Out), ∃ es, (x.next e).entries = x.entries ++ es := by
    intro x e
    unfold Past.next
    split <;> first | exact ⟨_, rfl⟩ | exact ⟨[], by simp⟩
  unfold past
  rw [List.foldl_append]
  generalize tr.foldl Past.next ⟨0, ttl, [], none, false⟩ = x
  induction tr' generalizing x with
  | nil => exact ⟨[], by simp⟩
  | cons e tr' ih =>
    obtain ⟨es, h⟩ := key x e
    obtain ⟨es', h'⟩ := ih (x.next e)
    exact ⟨es ++ es', by rw [List.foldl_cons, h', h, List.append_assoc]⟩

/-- A reader that comes when there are `n` groups is never given a message that was not the newest then, or later. -/
theorem c114_late {ttl : Option Nat} {tr : Trace} {s : State} (h : (machine ttl).Reach tr s) (ops : List Op) :
    (step s (.read .consume)).1 = .reader (.sub s.track.subs.length) ∧
    ∀ d ∈ Track.delivered ((machine ttl).runFrom (step s (.read .consume)).2 ops).2.calls s.track.subs.length,
      (past ttl tr).entries.length - 1 ≤ d.1 :=
  ⟨rfl, (Low.chats ttl ops (agree_reach h).inv.late).delivered⟩

/-- In particular, when the newest message was removed before, it is given none of the messages so far. -/
theorem c114_gone {ttl : Option Nat} {tr : Trace} {s : State} (h : (machine ttl).Reach tr s)
    (hn : (past ttl tr).entries.getLast? = some none) (ops : List Op) :
    ∀ d ∈ Track.delivered ((machine ttl).runFrom (step s (.read .consume)).2 ops).2.calls s.track.subs.length,
      (past ttl tr).entries.length ≤ d.1 := by
  intro d hd
  have h1 := (c114_late h ops).2 d hd
  have hr := (machine ttl).reach_runFrom (Machine.Reach.step (M := machine ttl) (.read .consume) h) ops
  obtain ⟨gs, -, g2, g3⟩ := c114_read hr s.track.subs.length
  rw [g3] at hd
  obtain ⟨x, hx, rfl⟩ := List.mem_map.1 hd
  have h2 := g2 x hx
  rw [List.append_assoc] at h2
  obtain ⟨es, he⟩ := past_grows ttl tr ([(.read .consume, ((machine ttl).step s (.read .consume)).1)] ++
    ((machine ttl).runFrom ((machine ttl).step s (.read .consume)).2 ops).1)
  rw [he] at h2
  have hl := newest_get hn
  have hlt := (List.getElem?_eq_some_iff.1 hl).1
  dsimp only at h1 ⊢
  by_cases hc : x.1 = (past ttl tr).entries.length - 1
  · rw [hc, List.getElem?_append_left hlt, hl] at h2
    cases h2
  · omega

/-! ## Runs of a reader -/

theorem reads_run (ttl : Option Nat) (rs : List Track.Op) : ∀ (s : State), (∀ op ∈ rs, Receive.reads op = true) →
    ((machine ttl).runFrom s (rs.map .read)).1.map (·.2) = (Track.machine.runFrom s.track rs).1.map (fun e => .reader e.2) ∧
    ((machine ttl).runFrom s (rs.map .read)).2.track = (Track.machine.runFrom s.track rs).2 := by
  induction rs with
  | nil => exact fun s _ => ⟨rfl, rfl⟩
  | cons op rs ih =>
    intro s h
    have e : step s (.read op) = (.reader (Track.step s.track op).1, call s op) := by
      unfold step
      dsimp only
      rw [if_pos (h op (by simp))]
    obtain ⟨i1, i2⟩ := ih (call s op) fun o ho => h o (List.mem_cons_of_mem _ ho)
    simp only [List.map_cons, Machine.runFrom, e]
    exact ⟨by rw [i1]; rfl, i2⟩

theorem newest_find {es : List (Option JsString)} {s : State} (i : Inv es s) (g : Nat) (m : JsString)
    (hm : es[g]? = some (some m)) : ∃ x, Track.find s.track g = some x ∧ x.frames = [textEncode m] := by
  have t := (Track.inv_reach i.reach).track
  have hlt := (List.getElem?_eq_some_iff.1 hm).1
  obtain ⟨x, hx⟩ := Track.find_of_mem (s := s.track) (id := g) (by rw [t.ids, i.acc]; simpa using hlt)
  obtain ⟨h1, h2⟩ := Track.find_mem hx
  refine ⟨x, hx, ?_⟩
  rw [t.content x h1, h2, i.content, hm]
  rfl

/-- A reader that comes while there is a message is given it at once. -/
theorem c114_joins {ttl : Option Nat} {tr : Trace} {s : State} (h : (machine ttl).Reach tr s) (m : JsString)
    (hm : (past ttl tr).entries.getLast? = some (some m)) :
    let c := s.track.subs.length
    let n := (past ttl tr).entries.length - 1
    ((machine ttl).runFrom s [.read .consume, .read (.nextFrame c .group), .read (.nextFrame c .frame)]).1.map (·.2) =
      [.reader (.sub c), .reader (.moved n), .reader (.frame n 0 (textEncode m))] := by
  intro c n
  have i := (agree_reach h).inv
  have t := (Track.inv_reach i.reach).track
  have hpos : (past ttl tr).entries.length ≠ 0 := by
    intro h0
    rw [List.length_eq_zero_iff.1 h0] at hm
    cases hm
  have hl : s.track.latest = some n := by
    rw [t.latest, if_pos i.live, i.acc, List.getLast?_range, if_neg hpos]
  obtain ⟨x, hx, hf⟩ := newest_find i n m (newest_get hm)
  obtain ⟨r1, -⟩ := reads_run ttl [.consume, .nextFrame c .group, .nextFrame c .frame] s (by simp [Receive.reads])
  have e : ([.read .consume, .read (.nextFrame c .group), .read (.nextFrame c .frame)] : List Op) =
      [Track.Op.consume, .nextFrame c .group, .nextFrame c .frame].map .read := rfl
  rw [e, r1]
  unfold Track.find at hx
  simp [c, Machine.runFrom, Track.step, Track.onSub, Track.startFetch, hl, Track.nextFrame, Track.frameNow, Track.stale,
    Track.find, hx, hf]

/-! ## Messages in quick succession -/

/-- What a new message does to readers. -/
theorem publish_subs {es : List (Option JsString)} {s : State} (i : Inv es s) (m : JsString) :
    (publish m s).2.track.subs = s.track.subs.map (fun u => { u with fetch := u.fetch.settle (.value (some es.length)) }) := by
  have hon : ∀ (t : Track.State) g f, (Track.onGroup t g f).2.subs = t.subs := by
    intro t g f
    unfold Track.onGroup
    split
    · split <;> rfl
    · rfl
  have hw : ∀ (t : Track.State) g b, (Track.step t (.write g b)).2.subs = t.subs := fun t g b => hon t g _
  have i1 : Inv es (clearTimer s) := i.frame (clearTimer_same s).1 (clearTimer_same s).2.1 (clearTimer_same s).2.2.1
  have i2 := i1.closing.1
  have hcs : (closeGroup (clearTimer s)).track.subs = s.track.subs := by
    rw [← (clearTimer_same s).1]
    unfold closeGroup
    split
    · rfl
    · exact hon _ _ _
  have hap : (Track.step (closeGroup (clearTimer s)).track .append).2.subs =
      s.track.subs.map (fun u => { u with fetch := u.fetch.settle (.value (some es.length)) }) := by
    rw [Track.step, Track.add, if_pos i2.live, i2.next, ← hcs]
    rfl
  unfold publish
  dsimp only
  rw [i2.append_out]
  dsimp only
  split
  · rw [(arm_same _).1]
    exact (hw _ _ _).trans hap
  · exact (hw _ _ _).trans hap

/-- What a reader does whose fetch has got a group that is no longer the newest. -/
theorem track_burst {t : Track.State} {c n : Nat} {u : Track.Sub} {x : Track.Grp} {b : Bytes}
    (hu : t.subs[c]? = some { u with fetch := .ready (.value (some n)) }) (hlive : t.status = .live) (hcl : u.closed = false)
    (hcur : ∀ k, u.current = some k → k < n) (hx : Track.find t n = some x) (hxf : x.frames = [b]) :
    let r := Track.machine.runFrom t [.run c, .nextFrame c .group, .nextFrame c .frame]
    r.1.map (·.2) = [.ok, .moved n, .frame n 0 b] ∧ FrameWaits r.2 c ∧ Quiet r.2 c := by
  have hlt : c < t.subs.length := (List.getElem?_eq_some_iff.1 hu).1
  have hget : t.subs[c] = { u with fetch := .ready (.value (some n)) } := (List.getElem?_eq_some_iff.1 hu).2
  have hst : Track.stale { u with epoch := t.epoch + 1, fetch := .done (.value n) } n = false := by
    unfold Track.stale
    split
    · next k hk => have := hcur k hk; simp; omega
    · rfl
  rw [hcl] at hst
  have hne : ¬ t.epoch + 1 ≤ t.epoch := by omega
  unfold Track.find at hx
  have e1 : Track.step t (.run c) =
      (.ok, { t with subs := t.subs.set c { u with epoch := t.epoch + 1, fetch := .done (.value n) } }) := by
    show Track.onSub _ _ _ = _
    unfold Track.onSub
    rw [hu]
    rfl
  have e2 : Track.step { t with subs := t.subs.set c { u with epoch := t.epoch + 1, fetch := .done (.value n) } }
      (.nextFrame c .group) =
      (.moved n, { t with subs := t.subs.set c ⟨t.epoch + 1, u.closed, .waiting, some n, 0⟩ }) := by
    show Track.onSub _ _ _ = _
    unfold Track.onSub
    simp [hlt, Track.nextFrame, hst, Track.startFetch, hcl, hne, Track.wait, hlive]
  have e3 : Track.step { t with subs := t.subs.set c ⟨t.epoch + 1, u.closed, .waiting, some n, 0⟩ } (.nextFrame c .frame) =
      (.frame n 0 b, { t with subs := t.subs.set c ⟨t.epoch + 1, u.closed, .waiting, some n, 1⟩ }) := by
    show Track.onSub _ _ _ = _
    unfold Track.onSub
    simp [hlt, Track.nextFrame, Track.frameNow, Track.find, hx, hxf]
  intro r
  have hr : r = ([(.run c, .ok), (.nextFrame c .group, .moved n), (.nextFrame c .frame, .frame n 0 b)],
      { t with subs := t.subs.set c ⟨t.epoch + 1, u.closed, .waiting, some n, 1⟩ }) := by
    simp only [r, Machine.runFrom, e1, e2, e3]
  rw [hr]
  refine ⟨rfl, fun p => ?_, ?_⟩
  · show (Track.onSub _ _ _).1 = _
    unfold Track.onSub
    cases p <;> cases hxs : x.status <;> simp [hlt, Track.nextFrame, Track.frameNow, Track.find, hx, hxf, hxs]
  · show (Track.onSub _ _ _).1 = _
    unfold Track.onSub
    simp [hlt, Track.run]

/-- A violation: two messages in quick succession.  A reader that waits is given the first and then waits on, though the
second is the newest. -/
theorem c114_burst {ttl : Option Nat} {tr : Trace} {s : State} (h : (machine ttl).Reach tr s) (c : Nat)
    (hp : FrameWaits s.track c) (hq : Quiet s.track c) (hcl : ¬ Track.Closed s.calls c) (m₁ m₂ : JsString) :
    let n := (past ttl tr).entries.length
    let r := (machine ttl).runFrom s [.publish m₁, .publish m₂, .read (.run c), .read (.nextFrame c .group),
      .read (.nextFrame c .frame)]
    r.1.map (·.2) = [.ok, .ok, .reader .ok, .reader (.moved n), .reader (.frame n 0 (textEncode m₁))] ∧
    (past ttl (tr ++ r.1)).entries = (past ttl tr).entries ++ [some m₁, some m₂] ∧
    FrameWaits r.2.track c ∧ Quiet r.2.track c := by
  intro n r
  have a := agree_reach h
  have ti := Track.inv_reach a.inv.reach
  obtain ⟨u, hu, hf⟩ := JsTrack.frameWaits_fetch hp hq fun u x x' hu hf hc => by
    have hs := ti.sub c u hu
    have hfo := hs.fetch
    unfold Track.FetchOk at hfo
    rw [hf] at hfo
    exact hfo.1.2 x' (List.mem_of_getLast? (hs.current x' hc))
  have hs := ti.sub c u hu
  have hcl' : u.closed = false := by
    cases hx : u.closed with
    | false => rfl
    | true => exact absurd (hs.closed.mp hx) hcl
  have hf : u.fetch = .waiting := by
    rcases hf with ⟨hf, -⟩ | ⟨hf, -⟩
    · exact hf
    · have hfo := hs.fetch
      unfold Track.FetchOk at hfo
      rw [hf] at hfo
      rcases hfo with h | h
      · rw [hcl'] at h; cases h
      · rw [a.inv.live] at h; cases h
  have hcur : ∀ x, u.current = some x → x < n := by
    intro x hx
    have := hs.acc x (List.mem_of_getLast? (hs.current x hx))
    rw [ti.track.ids, a.inv.acc] at this
    simpa using this
  -- the messages
  obtain ⟨p1, p2, -⟩ := publish_inv a.inv m₁
  have k1 := publish_subs a.inv m₁
  obtain ⟨q1, q2, -⟩ := publish_inv p2 m₂
  have k2 := publish_subs p2 m₂
  let s2 := (publish m₂ (publish m₁ s).2).2
  have hu2 : s2.track.subs[c]? = some { u with fetch := .ready (.value (some n)) } := by
    show (publish m₂ (publish m₁ s).2).2.track.subs[c]? = _
    rw [k2, k1, List.getElem?_map, List.getElem?_map, hu]
    simp [hf, Track.Fetch.settle, n]
  obtain ⟨x, hx, hxf⟩ := newest_find q2 n m₁ (by simp [n])
  obtain ⟨b1, b2, b3⟩ := track_burst hu2 q2.live hcl' hcur hx hxf
  obtain ⟨r1, r2⟩ := reads_run ttl [.run c, .nextFrame c .group, .nextFrame c .frame] s2 (by simp [Receive.reads])
  have hr : r = ((.publish m₁, .ok) :: (.publish m₂, .ok) ::
      ((machine ttl).runFrom s2 ([Track.Op.run c, .nextFrame c .group, .nextFrame c .frame].map .read)).1,
      ((machine ttl).runFrom s2 ([Track.Op.run c, .nextFrame c .group, .nextFrame c .frame].map .read)).2) := by
    have e1 : step s (.publish m₁) = (.ok, (publish m₁ s).2) := Prod.ext p1 rfl
    have e2 : step (publish m₁ s).2 (.publish m₂) = (.ok, s2) := Prod.ext q1 rfl
    simp only [r, Machine.runFrom, e1, e2, List.map_cons, List.map_nil]
  refine ⟨?_, ?_, ?_, ?_⟩
  · have : ∀ l : Track.Trace, l.map (fun e => Out.reader e.2) = (l.map (·.2)).map Out.reader := fun l => by simp
    rw [hr, List.map_cons, List.map_cons, r1, this, b1]
    rfl
  · rw [hr]
    unfold past
    rw [List.foldl_append]
    simp [Machine.runFrom, Past.next]
  · rw [hr, r2]
    exact b2
  · rw [hr, r2]
    exact b3

/-- A violation: a byte order mark at the beginning of a message is lost. -/
theorem c114_bom (L : Lossy) (m : String) (h : m.toList.head? = some (Char.ofNat 0xFEFF)) :
    message L (textEncode (ofRust m)) ≠ ofRust m := by
  unfold message
  rw [textEncode_ofRust, textDecode_bom L m h]
  unfold ofRust
  cases hl : m.toList with
  | nil => rw [hl] at h; cases h
  | cons c cs =>
    intro he
    have := congrArg List.length he
    have hc : (charUnits c).length ≠ 0 := by
      unfold charUnits
      split <;> simp
    simp only [units, List.tail_cons, List.flatMap_cons, List.length_append] at this
    omega

/-! ## Examples -/

def hi : JsString := ofRust "hi"
def bye : JsString := ofRust "bye"

/-- A message and its removal; a reader gets it, one that comes later does not; and the next message. -/
def ops₁ : List Op :=
  [.read .consume, .publish hi, .read (.run 0), .read (.nextFrame 0 .group), .read (.nextFrame 0 .frame), .tick 9, .fire 1,
   .tick 1, .fire 1, .read .consume, .read (.nextFrame 1 .group), .read (.nextFrame 1 .frame), .read (.run 0),
   .read (.nextFrame 0 .group), .publish bye, .read (.run 0), .read (.nextFrame 0 .group), .read (.nextFrame 0 .frame)]

example : ((machine (some 10)).run ops₁).1.map (·.2) =
    [.reader (.sub 0), .ok, .reader .ok, .reader (.moved 0), .reader (.frame 0 0 [104, 105]), .ok, .invalid, .ok, .ok,
     .reader (.sub 1), .reader (.moved 1), .reader .pending, .reader .ok, .reader (.moved 1), .ok, .reader .ok,
     .reader (.moved 2), .reader (.frame 2 0 [98, 121, 101])] := by decide +kernel

example : (past (some 10) ((machine (some 10)).run ops₁).1).entries = [some hi, none, some bye] := by decide +kernel

/-- The hypotheses of `c114_expires`, at time 10. -/
example : let x := past (some 10) ((machine (some 10)).run (ops₁.take 8)).1
    x.last = some ⟨hi, 0, some 10⟩ ∧ x.stopped = false ∧ x.now = 10 := by decide +kernel

/-- The hypotheses of `c114_early` and `c114_joins`. -/
example : (past (some 10) ((machine (some 10)).run (ops₁.take 8)).1).entries.getLast? = some (some hi) ∧
    (step ((machine (some 10)).run (ops₁.take 8)).2 (.fire 1)).1 ≠ .invalid := by decide +kernel

/-- The hypothesis of `c114_gone`. -/
example : (past (some 10) ((machine (some 10)).run (ops₁.take 9)).1).entries.getLast? = some none := by decide +kernel

/-- The hypotheses of `c114_newest_partial`. -/
example : let s := ((machine (some 10)).run ops₁).2
    Prompt s.calls 0 ∧ FrameWaits s.track 0 ∧ Quiet s.track 0 ∧ ¬ Track.Closed s.calls 0 ∧
      (.nextGroup 0, .undefined) ∉ s.calls := by
  refine ⟨(JsCatalogTrack.check_sound 0 _ false (by decide +kernel)).1, fun p => ?_, by decide +kernel, ?_, by decide +kernel⟩
  · cases p <;> decide +kernel
  · unfold Track.Closed
    decide +kernel

/-- The two cases of `c114_kept`: nothing removes the message. -/
example : ((machine (some 0)).run [.publish hi, .tick 1000, .fire 1]).1.map (·.2) = [.ok, .ok, .invalid] ∧
    ((machine (some 10)).run [.publish hi, .close, .tick 1000, .fire 1, .read .consume, .read (.nextFrame 0 .group),
      .read (.nextFrame 0 .frame), .read (.nextFrame 0 .frame)]).1.map (·.2) =
    [.ok, .ok, .ok, .invalid, .reader (.sub 0), .reader (.moved 0), .reader (.frame 0 0 [104, 105]), .reader .pending] := by
  decide +kernel

/-- A second message has a timer of its own. -/
example : ((machine (some 10)).run [.publish hi, .tick 5, .publish bye, .tick 5, .fire 1, .fire 2, .tick 5, .fire 2]).1.map (·.2) =
    [.ok, .ok, .ok, .ok, .invalid, .invalid, .ok, .ok] := by decide +kernel

/-- The hypothesis of `c114_text`, and of `c114_bom`. -/
example : ("hi" : String).toList.head? ≠ some (Char.ofNat 0xFEFF) ∧
    (String.ofList [Char.ofNat 0xFEFF, 'a']).toList.head? = some (Char.ofNat 0xFEFF) := ⟨by decide +kernel, by decide +kernel⟩

end Verif.Props.JsChat
