import Verif.Js.AnnouncedLemmas

/-!
# Property C95: announcements in the browser
-/

set_option autoImplicit false

namespace Verif.Props.JsAnnounced

open Verif Verif.Js.Announced

/-- The consumer exists and has this prefix. -/
def Has (tr : Trace) (c : Nat) (pre : Str) : Prop := (prefixes tr)[c]? = some pre

/-- A call of `next` of `c`, or the continuation of one. -/
def Reads (op : Op) (c : Nat) : Prop := op = .next c ∨ op = .resume c

theorem handle_of {tr : Trace} {s : State} (h : machine.Reach tr s) {c : Nat} {pre : Str}
    (hc : Has tr c pre) : ∃ x, s.handles[c]? = some x ∧ x.pre = pre ∧
      HInv s.queue s.status (answers tr c) (Closed tr c) x := by
  unfold Has at hc
  rw [(inv_reach h).pres, List.getElem?_map] at hc
  cases hx : s.handles[c]? with
  | none => rw [hx] at hc; cases hc
  | some x =>
    rw [hx] at hc
    exact ⟨x, rfl, by simpa using hc, (inv_reach h).handle c x hx⟩

theorem got_eq {tr : Trace} {s : State} (h : machine.Reach tr s) {c : Nat} {x : Handle}
    (i : HInv s.queue s.status (answers tr c) (Closed tr c) x) :
    got tr c = due x.pre ((written tr).take x.index) := by
  rw [← (inv_reach h).queue]
  exact i.got

theorem due_take_prefix (pre : Str) (as : List Announce) (k : Nat) :
    due pre (as.take k) <+: due pre as := by
  refine ⟨due pre (as.drop k), ?_⟩
  rw [← due_append, List.take_append_drop]

/-- **C95.**  A consumer is told the announcements below its prefix, without the prefix, in order, from
the first one on, each once and none left out. -/
theorem c95_prefix {tr : Trace} {s : State} (h : machine.Reach tr s) (c : Nat) (pre : Str)
    (hc : Has tr c pre) : got tr c <+: due pre (written tr) := by
  obtain ⟨x, -, rfl, i⟩ := handle_of h hc
  rw [got_eq h i]
  exact due_take_prefix _ _ _

/-- What is told: the rest of the path after the prefix. -/
theorem c95_told (pre : Str) (a b : Announce) :
    told pre a = some b ↔ a.path = pre ++ b.path ∧ a.active = b.active := by
  unfold told
  cases hs : suffixOf pre a.path with
  | none =>
    simp only [reduceCtorEq, false_iff]
    rintro ⟨h1, -⟩
    rw [(suffixOf_iff _ _ _).mpr h1] at hs
    cases hs
  | some rest =>
    have hr := (suffixOf_iff _ _ _).mp hs
    obtain ⟨bp, ba⟩ := b
    simp [hr]

theorem all_read {tr : Trace} {s : State} (h : machine.Reach tr s) {c : Nat} {x : Handle}
    (i : HInv s.queue s.status (answers tr c) (Closed tr c) x) (hx : x.index = s.queue.length) :
    got tr c = due x.pre (written tr) := by
  rw [got_eq h i, hx, (inv_reach h).queue, List.take_length]

theorem status_of {tr : Trace} {s : State} (h : machine.Reach tr s) {t : Js.Group.Status}
    (ht : s.status = t) : ending tr = statusOp t := by
  rw [(inv_reach h).status, ht]

theorem onHandle_out {s : State} {c : Nat} {x : Handle} (hx : s.handles[c]? = some x)
    (f : Handle → Out × Handle) : (onHandle s c f).1 = (f x).1 := by
  unfold onHandle
  rw [hx]

/-- The answer of one look at the queue. -/
theorem look_out {s : State} {ans : List Out} {cl : Prop} {x : Handle}
    (i : HInv s.queue s.status ans cl x) :
    (∃ b, (look s x).1 = .announce b ∧
      (due x.pre s.queue)[(due x.pre (s.queue.take x.index)).length]? = some b) ∨
    (due x.pre s.queue = due x.pre (s.queue.take x.index) ∧
      (look s x).1 = if x.closed then .undefined else .pending) := by
  rcases look_cases s x i.index with ⟨b, k, h1, h2, h3⟩ | ⟨h1, h2⟩
  · refine .inl ⟨b, by rw [h1], ?_⟩
    obtain ⟨t, ht⟩ := due_take_prefix x.pre s.queue k
    rw [← ht, h3]
    simp
  · refine .inr ⟨h1, ?_⟩
    rw [h2]
    split <;> rfl

/-- What a read answers. -/
theorem read_out {tr : Trace} {s : State} (h : machine.Reach tr s) {c : Nat} {op : Op} {x : Handle}
    (hx : s.handles[c]? = some x) (hop : Reads op c) :
    ((step s op).1 = .undefined →
        Closed tr c ∨ (s.status = .closed ∧ x.index = s.queue.length)) ∧
      ((step s op).1 = .rejected → s.status = .aborted ∧ x.index = s.queue.length) := by
  have i := (inv_reach h).handle c x hx
  have hc := i.call
  unfold CallOk at hc
  have hl : ((look s x).1 = .undefined → Closed tr c) ∧ (look s x).1 ≠ .rejected := by
    rcases look_out i with ⟨b, hb, -⟩ | ⟨-, hb⟩
    · rw [hb]
      simp
    · rw [hb]
      by_cases hcl : x.closed = true
      · rw [if_pos hcl]
        exact ⟨fun _ => i.closed.mp hcl, by simp⟩
      · rw [if_neg hcl]
        simp
  rcases hop with rfl | rfl
  · rw [step, onHandle_out hx]
    by_cases hi : x.call = .idle
    · rw [if_pos hi]
      unfold next
      by_cases hcl : x.closed = true
      · rw [if_pos hcl]
        exact ⟨fun _ => .inl (i.closed.mp hcl), fun h => (by cases h)⟩
      · rw [if_neg hcl]
        exact ⟨fun h => .inl (hl.1 h), fun h => absurd h hl.2⟩
    · rw [if_neg hi]
      simp
  · rw [step, onHandle_out hx]
    unfold resume
    rcases hcall : x.call with _ | _ | ⟨fs | _ | _⟩ <;> rw [hcall] at hc <;> dsimp only at hc ⊢
    · simp
    · simp
    · exact ⟨fun h => .inl (hl.1 h), fun h => absurd h hl.2⟩
    · exact ⟨fun _ => hc.imp_left i.closed.mp, fun h => (by cases h)⟩
    · exact ⟨fun h => (by cases h), fun _ => hc⟩

/-- The end is not reported early: `undefined` means that this consumer was closed, or that the
queue was closed and the consumer was told everything. -/
theorem c95_end {tr : Trace} {s : State} (h : machine.Reach tr s) (c : Nat) (pre : Str)
    (hc : Has tr c pre) (op : Op) (hop : Reads op c) (ho : (step s op).1 = .undefined) :
    Closed tr c ∨ (ending tr = some .close ∧ got tr c = due pre (written tr)) := by
  obtain ⟨x, hx, rfl, i⟩ := handle_of h hc
  exact ((read_out h hx hop).1 ho).imp_right fun ⟨a, b⟩ => ⟨status_of h a, all_read h i b⟩

/-- An exception means that the queue was aborted, and the consumer was told everything before. -/
theorem c95_rejected {tr : Trace} {s : State} (h : machine.Reach tr s) (c : Nat) (pre : Str)
    (hc : Has tr c pre) (op : Op) (hop : Reads op c) (ho : (step s op).1 = .rejected) :
    ending tr = some .abort ∧ got tr c = due pre (written tr) := by
  obtain ⟨x, hx, rfl, i⟩ := handle_of h hc
  obtain ⟨a, b⟩ := (read_out h hx hop).2 ho
  exact ⟨status_of h a, all_read h i b⟩

theorem look_due {tr : Trace} {s : State} (h : machine.Reach tr s) {c : Nat} {x : Handle}
    (i : HInv s.queue s.status (answers tr c) (Closed tr c) x) {a : Announce}
    (ha : (due x.pre (written tr))[(got tr c).length]? = some a) : (look s x).1 = .announce a := by
  have hg : got tr c = due x.pre (s.queue.take x.index) := i.got
  rw [hg, ← (inv_reach h).queue] at ha
  rcases look_out i with ⟨b, hb, hb'⟩ | ⟨hb, -⟩
  · rw [ha] at hb'
    cases hb'
    exact hb
  · rw [hb] at ha
    simp at ha

/-- An announcement that is there is told at once, also after the queue was closed or aborted. -/
theorem c95_available {tr : Trace} {s : State} (h : machine.Reach tr s) (c : Nat) (pre : Str)
    (hc : Has tr c pre) (hcl : ¬ Closed tr c) (hw : ¬ Waits tr c) (a : Announce)
    (ha : (due pre (written tr))[(got tr c).length]? = some a) :
    (step s (.next c)).1 = .announce a := by
  obtain ⟨x, hx, rfl, i⟩ := handle_of h hc
  have hi : x.call = .idle := Classical.byContradiction fun hn => hw (i.waits.mpr hn)
  have hcl' : ¬ x.closed = true := fun hxc => hcl (i.closed.mp hxc)
  rw [step, onHandle_out hx, if_pos hi, next, if_neg hcl']
  exact look_due h i ha

/-- A waiting call is woken by an announcement below its prefix and returns it. -/
theorem c95_woken {tr : Trace} {s : State} (h : machine.Reach tr s) (c : Nat) (pre : Str)
    (hc : Has tr c pre) (hcl : ¬ Closed tr c) (hw : Waits tr c) (a : Announce)
    (ha : (due pre (written tr))[(got tr c).length]? = some a) :
    (step s (.resume c)).1 = .announce a := by
  obtain ⟨x, hx, rfl, i⟩ := handle_of h hc
  have hcall := i.waits.mp hw
  have hk := i.call
  have hall : x.index ≠ s.queue.length := by
    intro e
    rw [all_read h i e] at ha
    simp at ha
  have hcl' : ¬ x.closed = true := fun hxc => hcl (i.closed.mp hxc)
  rw [step, onHandle_out hx]
  unfold CallOk at hk
  unfold resume
  rcases hxc : x.call with _ | _ | ⟨fs | _ | _⟩ <;> rw [hxc] at hk <;> dsimp only at hk ⊢
  · exact absurd hxc hcall
  · exact absurd hk.1 hall
  · exact look_due h i ha
  · rcases hk with hk | hk
    · exact absurd hk hcl'
    · exact absurd hk.2 hall
  · exact absurd hk.2 hall

/-- No call is forgotten: a pending call that cannot continue was told everything, and neither the
queue nor the consumer was closed. -/
theorem c95_waiting {tr : Trace} {s : State} (h : machine.Reach tr s) (c : Nat) (pre : Str)
    (hc : Has tr c pre) (hw : Waits tr c) (hr : (step s (.resume c)).1 = .invalid) :
    got tr c = due pre (written tr) ∧ ending tr = none ∧ ¬ Closed tr c := by
  obtain ⟨x, hx, rfl, i⟩ := handle_of h hc
  have hcall := i.waits.mp hw
  have hk := i.call
  rw [step, onHandle_out hx] at hr
  unfold CallOk at hk
  unfold resume at hr
  rcases hxc : x.call with _ | _ | ⟨fs | _ | _⟩ <;> rw [hxc] at hk <;> simp only [hxc] at hr
  · exact absurd hxc hcall
  · refine ⟨all_read h i hk.1, status_of h hk.2.1, fun hcl => ?_⟩
    rw [i.closed.mpr hcl] at hk
    exact absurd hk.2.2 (by simp)
  · exact absurd hr (look_inv i).2
  · cases hr
  · cases hr

/-- A closed consumer is told nothing more. -/
theorem c95_closed {tr : Trace} {s : State} (h : machine.Reach tr s) (c : Nat)
    (hcl : Closed tr c) (hw : ¬ Waits tr c) : (step s (.next c)).1 = .undefined := by
  have hlt : c < s.handles.length := Classical.byContradiction fun hn =>
    ((inv_reach h).fresh c (by omega)).2 hcl
  obtain ⟨x, hx⟩ : ∃ x, s.handles[c]? = some x := ⟨_, List.getElem?_eq_getElem hlt⟩
  have i := (inv_reach h).handle c x hx
  have hi : x.call = .idle := Classical.byContradiction fun hn => hw (i.waits.mpr hn)
  rw [step, onHandle_out hx, if_pos hi, next, i.closed.mpr hcl, if_pos rfl]

/-- Announcements are taken exactly until the queue is closed or aborted. -/
theorem c95_write {tr : Trace} {s : State} (h : machine.Reach tr s) (a : Announce) :
    (step s (.write a)).1 = (if ending tr = none then .ok else .threw) := by
  rw [(inv_reach h).status]
  cases hs : s.status <;> simp [step, hs, statusOp]

/-- `Subscriber.announced`, js/moq/src/subscriber.ts:38-80: the loop writes the prefix it asked for
and the suffix from the wire. -/
def full (pre : Str) (a : Announce) : Announce := ⟨pre ++ a.path, a.active⟩

/-- The application is told the suffixes that came from the wire, in that order. -/
theorem c95_subscriber {tr : Trace} {s : State} (h : machine.Reach tr s) (c : Nat) (pre : Str)
    (hc : Has tr c pre) (msgs : List Announce) (hm : written tr = msgs.map (full pre)) :
    got tr c <+: msgs := by
  have := c95_prefix h c pre hc
  rw [hm] at this
  have e : due pre (msgs.map (full pre)) = msgs := by
    clear this hm
    induction msgs with
    | nil => rfl
    | cons m ms ih =>
      rw [List.map_cons]
      unfold due at ih ⊢
      rw [List.filterMap_cons_some ((c95_told pre (full pre m) m).mpr ⟨rfl, rfl⟩), ih]
  rwa [e] at this

/-- Two consumers with different prefixes; announcements that are skipped; a waiting call that an
announcement outside its prefix wakes in vain; an end. -/
example : (machine.run [.consume [1], .write ⟨[1, 2], true⟩, .write ⟨[3], true⟩, .next 0, .next 0,
      .write ⟨[4], true⟩, .resume 0, .consume [], .next 1, .clone 0, .next 2, .write ⟨[1, 5], false⟩,
      .resume 0, .close, .next 0, .resume 0]).1.map (·.2) =
    [.handle 0, .ok, .ok, .announce ⟨[2], true⟩, .pending, .ok, .pending, .handle 1,
      .announce ⟨[1, 2], true⟩, .handle 2, .announce ⟨[2], true⟩, .ok, .announce ⟨[5], false⟩, .ok,
      .pending, .undefined] := by decide +kernel

/-- The hypotheses of `c95_waiting` and `c95_woken`. -/
example : (let r := machine.run [.consume [1], .write ⟨[2], true⟩, .next 0]
     Has r.1 0 [1] ∧ Waits r.1 0 ∧ (step r.2 (.resume 0)).1 = .invalid) ∧
    (let r := machine.run [.consume [1], .next 0, .write ⟨[2], true⟩, .write ⟨[1], true⟩]
     Has r.1 0 [1] ∧ Waits r.1 0 ∧
      (due [1] (written r.1))[(got r.1 0).length]? = some ⟨[], true⟩) :=
  ⟨⟨rfl, rfl, rfl⟩, rfl, rfl, rfl⟩

/-- An aborted queue; closing a consumer while it waits. -/
example : (machine.run [.consume [], .next 0, .abort, .write ⟨[1], true⟩, .resume 0]).1.map (·.2) =
      [.handle 0, .pending, .ok, .threw, .rejected] ∧
    (machine.run [.consume [], .next 0, .closeHandle 0 false, .resume 0, .next 0]).1.map (·.2) =
      [.handle 0, .pending, .ok, .undefined, .undefined] := by
  constructor <;> decide +kernel

/-- The hypotheses of `c95_subscriber`. -/
example : let r := machine.run [.consume [1, 2], .write ⟨[1, 2, 3], true⟩, .next 0]
    Has r.1 0 [1, 2] ∧ written r.1 = [⟨[3], true⟩].map (full [1, 2]) ∧ got r.1 0 = [⟨[3], true⟩] :=
  ⟨rfl, rfl, rfl⟩

end Verif.Props.JsAnnounced
