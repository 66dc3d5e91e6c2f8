import Verif.Model.OriginForward
import Verif.Message.Model

/-!
# Model of `Subscriber::consume_prefix`

rs/moq/src/session/subscriber.rs:37-152 together with the sender of the announcements,
rs/moq/src/session/publisher.rs:63-88.  There are two origins: the one of the remote peer, and
the one `consume_prefix` creates for the announcements that arrive.  `Remote` describes their
joint executions.
-/

set_option autoImplicit false

namespace Verif.Session.Remote

open Verif Verif.Model.Origin Verif.Model.Origin.Spec

/-- The operation begins a publication. -/
def Publishes : Op → Prop
  | .publishStart _ _ _ => True
  | _ => False

/-- The joint executions.  `ta`, `a` are history and state of the origin of the remote peer,
`tb`, `b` of the local one; `flight` are the announcements that were sent and not yet handled,
with the broadcast they stand for (a local broadcast is named after the remote one it stands
for).  The remote peer uses consumer `c` of its origin, which has the requested prefix.

Unannouncements are not tracked here: they only close a local broadcast, which is among the
operations on the local origin that may happen at any time.  When the receiver rejects an
announcement as a duplicate (C43) it stops; that is an execution in which `publish` does not
happen any more. -/
inductive Remote (c : Nat) (pre : Path) :
    Trace → State → Trace → State → List (Path × Nat) → Prop
  /-- `consume_prefix`: a new origin and its consumer `0` for the prefix (lines 40-41), and a
  consumer of the remote origin for the prefix that is sent in the request (lines 70-73 and
  rs/moq/src/session/publisher.rs:64) -/
  | start {ta a} : machine.Reach ta a → ConsumerAlive ta c → prefixOf ta c = pre →
      delivered ta c = [] →
      Remote c pre ta a [(.consumePrefix 0 pre [], .handle 0)]
        (step init (.consumePrefix 0 pre [])).2 []
  /-- anybody else uses the remote origin -/
  | source {ta a tb b flight} (op : Op) : op ≠ .check c →
      Remote c pre ta a tb b flight →
      Remote c pre (ta ++ [(op, (step a op).1)]) (step a op).2 tb b flight
  /-- the local origin is used in any way, except that only the receiver publishes -/
  | target {ta a tb b flight} (op : Op) : ¬ Publishes op →
      Remote c pre ta a tb b flight →
      Remote c pre ta a (tb ++ [(op, (step b op).1)]) (step b op).2 flight
  /-- the remote peer announces a broadcast, rs/moq/src/session/publisher.rs:76-82 -/
  | send {ta a tb b flight suffix bc} : (step a (.check c)).1 = .item suffix bc →
      Remote c pre ta a tb b flight →
      Remote c pre (ta ++ [(.check c, .item suffix bc)]) (step a (.check c)).2 tb b
        (flight ++ [(suffix, bc)])
  /-- it has nothing to announce -/
  | idle {ta a tb b flight} : (∀ suffix bc, (step a (.check c)).1 ≠ .item suffix bc) →
      Remote c pre ta a tb b flight →
      Remote c pre (ta ++ [(.check c, (step a (.check c)).1)]) (step a (.check c)).2 tb b flight
  /-- an announcement is received and published locally under the suffix, lines 79-88 -/
  | receive {ta a tb b flight suffix bc} : (step b (.publishStart 0 suffix bc)).1 = .ok →
      Remote c pre ta a tb b ((suffix, bc) :: flight) →
      Remote c pre ta a (tb ++ [(.publishStart 0 suffix bc, .ok)])
        (step b (.publishStart 0 suffix bc)).2 flight

/-- The request that is sent for a track of the broadcast that was published under `path`:
`run_broadcast` is started with the suffix (line 94), and passes it on (lines 142-147 and
157-162). -/
def subscribeMessage (id : Nat) (path : Path) (track : String) (priority : UInt8) :
    Message.Subscribe :=
  ⟨id, String.ofList path, track, priority⟩

theorem Remote.reach {c : Nat} {pre : Path} {ta tb : Trace} {a b : State}
    {flight : List (Path × Nat)} (h : Remote c pre ta a tb b flight) :
    machine.Reach ta a ∧ machine.Reach tb b := by
  induction h with
  | start h1 _ _ _ =>
    refine ⟨h1, ?_⟩
    have := Machine.Reach.step (M := machine) (.consumePrefix 0 pre []) (Machine.Reach.init (M := machine))
    exact this
  | source op _ _ ih => exact ⟨.step op ih.1, ih.2⟩
  | target op _ _ ih => exact ⟨ih.1, .step op ih.2⟩
  | send he _ ih => exact ⟨he ▸ Machine.Reach.step (M := machine) (.check c) ih.1, ih.2⟩
  | idle _ _ ih => exact ⟨Machine.Reach.step (M := machine) (.check c) ih.1, ih.2⟩
  | receive he _ ih => exact ⟨ih.1, he ▸ Machine.Reach.step (M := machine) (.publishStart 0 _ _) ih.2⟩

theorem Remote.made {c : Nat} {pre : Path} {ta tb : Trace} {a b : State}
    {flight : List (Path × Nat)} (h : Remote c pre ta a tb b flight) :
    ConsumerMade ta c ∧ ConsumerMade tb 0 := by
  induction h with
  | start h1 h2 _ _ => exact ⟨exists_made h1 c h2.1, .inl ⟨0, pre, [], List.mem_singleton.2 rfl⟩⟩
  | source _ _ _ ih => exact ⟨made_mono ih.1 _, ih.2⟩
  | target _ _ _ ih => exact ⟨ih.1, made_mono ih.2 _⟩
  | send _ _ ih => exact ⟨made_mono ih.1 _, ih.2⟩
  | idle _ _ ih => exact ⟨made_mono ih.1 _, ih.2⟩
  | receive _ _ ih => exact ⟨ih.1, made_mono ih.2 _⟩

/-- What the history says about a consumer, apart from what it has received, changes only by
publications. -/
theorem view_other {tr : Trace} {s : State} (h : machine.Reach tr s) {d : Nat}
    (hm : ConsumerMade tr d) (op : Op) (hop : ¬ Publishes op)
    (he : ((book tr).view d).exists' = true) :
    let v := (book (tr ++ [(op, (step s op).1)])).view d
    v.expected = ((book tr).view d).expected ∧ v.pre = ((book tr).view d).pre ∧
      v.exists' = true ∧ v.clean = ((book tr).view d).clean := by
  have hlt := (tables_reach h).consumers.bound d (.inl hm)
  have hne : d ≠ s.consumers.length := by omega
  have same : ∀ e : Op × Out, ((note (book tr) e).view d) = (book tr).view d →
      ((note (book tr) e).view d).expected = ((book tr).view d).expected ∧
      ((note (book tr) e).view d).pre = ((book tr).view d).pre ∧
      ((note (book tr) e).view d).exists' = true ∧
      ((note (book tr) e).view d).clean = ((book tr).view d).clean := by
    intro e hv
    rw [hv]
    exact ⟨rfl, rfl, he, rfl⟩
  rw [book_snoc]
  cases op with
  | publishStart p path bc => exact absurd trivial hop
  | check d =>
    simp only [step]
    (repeat' split) <;> try exact same _ rfl
    simp only [note]
    split <;> exact ⟨rfl, rfl, he, rfl⟩
  | consumePrefix p pre order =>
    simp only [step]
    (repeat' split) <;> try exact same _ rfl
    refine same _ ?_
    simp only [note]
    rw [if_neg hne]
  | cloneStart d =>
    simp only [step]
    (repeat' split) <;> try exact same _ rfl
    refine same _ ?_
    simp only [note]
    rw [if_neg hne]
  | cloneFinish d =>
    simp only [step]
    (repeat' split) <;> try exact same _ rfl
    all_goals
      simp only [note]
      split <;> exact ⟨rfl, rfl, by first | rfl | exact he, rfl⟩
  | _ =>
    simp only [step]
    (repeat' split) <;> exact same _ rfl

theorem Remote.flow {c : Nat} {pre : Path} {ta tb : Trace} {a b : State}
    {flight : List (Path × Nat)} (h : Remote c pre ta a tb b flight) :
    expected tb 0 ++ under pre flight = under pre (delivered ta c) ∧ prefixOf tb 0 = pre ∧
      ((book tb).view 0).exists' = true ∧ Clean tb 0 := by
  induction h with
  | start h1 h2 h3 h4 =>
    rw [h4]
    refine ⟨?_, ?_, ?_, ?_⟩ <;> simp [expected, prefixOf, Clean, book, note, under]
  | source op hop hf ih => rw [delivered_other hf.reach.1 hf.made.1 op (.inl hop)]; exact ih
  | target op hop hf ih =>
    obtain ⟨h1, h2, h3, h4⟩ := ih
    obtain ⟨v1, v2, v3, v4⟩ := view_other hf.reach.2 hf.made.2 op hop h3
    unfold expected prefixOf Clean at *
    rw [v1, v2, v4]
    exact ⟨h1, h2, v3, h4⟩
  | @send ta a tb b flight suffix bc he hf ih =>
    have : delivered (ta ++ [(.check c, .item suffix bc)]) c = delivered ta c ++ [(suffix, bc)] := by
      unfold delivered
      rw [book_snoc]
      simp [note]
    rw [this, under_append, under_append, ← ih.1, List.append_assoc]
    exact ⟨rfl, ih.2⟩
  | idle he hf ih => rw [delivered_other hf.reach.1 hf.made.1 _ (.inr he)]; exact ih
  | @receive ta a tb b flight suffix bc he hf ih =>
    obtain ⟨h1, h2, h3, h4⟩ := ih
    rw [← h1]
    unfold expected prefixOf Clean at *
    rw [book_snoc]
    simp only [note]
    rw [if_pos h3]
    refine ⟨?_, h2, h3, h4⟩
    simp only []
    rw [h2, List.append_assoc, ← under_append]
    rfl

theorem Remote.prefix {c : Nat} {pre : Path} {ta tb : Trace} {a b : State}
    {flight : List (Path × Nat)} (h : Remote c pre ta a tb b flight) : prefixOf ta c = pre := by
  have key : ∀ {tr : Trace} {s : State}, machine.Reach tr s → ConsumerMade tr c → ∀ op,
      prefixOf (tr ++ [(op, (step s op).1)]) c = prefixOf tr c := by
    intro tr s h hm op
    have hlt := (tables_reach h).consumers.bound c (.inl hm)
    have hne : c ≠ s.consumers.length := by omega
    unfold prefixOf
    rw [book_snoc]
    cases op <;> simp only [step] <;> (repeat' split) <;> first
      | rfl
      | (simp only [note]; rw [if_neg hne]; done)
      | (simp only [note]; split <;> rfl)
  induction h with
  | start h1 h2 h3 h4 => exact h3
  | source op hop hf ih => rw [key hf.reach.1 hf.made.1]; exact ih
  | target op hop hf ih => exact ih
  | send he hf ih => rw [← he, key hf.reach.1 hf.made.1]; exact ih
  | idle he hf ih => rw [key hf.reach.1 hf.made.1]; exact ih
  | receive he hf ih => exact ih

end Verif.Session.Remote
