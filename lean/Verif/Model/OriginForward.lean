import Verif.Model.OriginLemmas

/-!
# Model of `OriginProducer::publish_prefix`

The spawned task (rs/moq/src/model/origin.rs:109-118) takes the announcements of a consumer of
one origin and publishes them into another one.  `Forward` describes the joint executions of the
two origins and the task.
-/

set_option autoImplicit false

namespace Verif.Model.Origin

open Verif Verif.Model.Origin.Spec

/-- The publications begun through producer `p`, in order. -/
def Spec.begunBy (p : Nat) (tr : Trace) : List (Path × Nat) :=
  tr.filterMap fun
    | (.publishStart q path bc, .ok) => if q = p then some (path, bc) else none
    | _ => none

/-- What the task does with an announcement, rs/moq/src/model/origin.rs:111-116. -/
def repath (pre : Path) (e : Path × Nat) : Path × Nat := (pre ++ e.1, e.2)

/-- The joint executions.  `ta`, `a` and `tb`, `b` are histories and states of the source and
the target.  The task owns consumer `c` of the source and producer `p` of the target (lines
101 and 99); `held` is an announcement it has received and is about to publish.  Everything else
that happens to the two origins is arbitrary, including when the steps of a `publish` of the
task happen. -/
inductive Forward (c p : Nat) (pre : Path) :
    Trace → State → Trace → State → Option (Path × Nat) → Prop
  /-- the task is spawned with a consumer and a producer that were not used before -/
  | spawn {ta a tb b} : machine.Reach ta a → machine.Reach tb b → ConsumerAlive ta c →
      delivered ta c = [] → begunBy p tb = [] → Forward c p pre ta a tb b none
  /-- anybody else uses the source -/
  | source {ta a tb b held} (op : Op) : op ≠ .check c →
      Forward c p pre ta a tb b held →
      Forward c p pre (ta ++ [(op, (step a op).1)]) (step a op).2 tb b held
  /-- anybody else uses the target, or a `publish` of the task proceeds -/
  | target {ta a tb b held} (op : Op) : (∀ path bc, op ≠ .publishStart p path bc) →
      Forward c p pre ta a tb b held →
      Forward c p pre ta a (tb ++ [(op, (step b op).1)]) (step b op).2 held
  /-- the task takes the next announcement -/
  | next {ta a tb b suffix bc} : (step a (.check c)).1 = .item suffix bc →
      Forward c p pre ta a tb b none →
      Forward c p pre (ta ++ [(.check c, .item suffix bc)]) (step a (.check c)).2 tb b
        (some (repath pre (suffix, bc)))
  /-- there is none yet -/
  | idle {ta a tb b} : (∀ suffix bc, (step a (.check c)).1 ≠ .item suffix bc) →
      Forward c p pre ta a tb b none →
      Forward c p pre (ta ++ [(.check c, (step a (.check c)).1)]) (step a (.check c)).2 tb b none
  /-- the task calls `publish`, which gets the lock -/
  | publish {ta a tb b path bc} : (step b (.publishStart p path bc)).1 = .ok →
      Forward c p pre ta a tb b (some (path, bc)) →
      Forward c p pre ta a (tb ++ [(.publishStart p path bc, .ok)])
        (step b (.publishStart p path bc)).2 none

theorem Forward.reach {c p : Nat} {pre : Path} {ta tb : Trace} {a b : State}
    {held : Option (Path × Nat)} (h : Forward c p pre ta a tb b held) :
    machine.Reach ta a ∧ machine.Reach tb b := by
  induction h with
  | spawn h1 h2 _ _ _ => exact ⟨h1, h2⟩
  | source op _ _ ih => exact ⟨.step op ih.1, ih.2⟩
  | target op _ _ ih => exact ⟨ih.1, .step op ih.2⟩
  | next he _ ih => exact ⟨he ▸ Machine.Reach.step (M := machine) (.check c) ih.1, ih.2⟩
  | idle _ _ ih => exact ⟨Machine.Reach.step (M := machine) (.check c) ih.1, ih.2⟩
  | publish he _ ih => exact ⟨ih.1, he ▸ Machine.Reach.step (M := machine) (.publishStart p _ _) ih.2⟩

theorem made_mono {tr : Trace} {c : Nat} (h : ConsumerMade tr c) (e : Op × Out) :
    ConsumerMade (tr ++ [e]) c := by
  rcases h with ⟨p, pre, order, hm⟩ | ⟨d, hm⟩
  · exact .inl ⟨p, pre, order, List.mem_append_left _ hm⟩
  · exact .inr ⟨d, List.mem_append_left _ hm⟩

theorem Forward.made {c p : Nat} {pre : Path} {ta tb : Trace} {a b : State}
    {held : Option (Path × Nat)} (h : Forward c p pre ta a tb b held) : ConsumerMade ta c := by
  induction h with
  | spawn h1 _ h3 _ _ => exact exists_made h1 c h3.1
  | source _ _ _ ih => exact made_mono ih _
  | target _ _ _ ih => exact ih
  | next _ _ ih => exact made_mono ih _
  | idle _ _ ih => exact made_mono ih _
  | publish _ _ ih => exact ih

/-- Only `check c` delivers something to `c`. -/
theorem delivered_other {tr : Trace} {s : State} (h : machine.Reach tr s) {c : Nat}
    (hm : ConsumerMade tr c) (op : Op) (hop : op ≠ .check c ∨ ∀ suffix bc,
      (step s op).1 ≠ .item suffix bc) :
    delivered (tr ++ [(op, (step s op).1)]) c = delivered tr c := by
  have hlt := (tables_reach h).consumers.bound c (.inl hm)
  have hne : c ≠ s.consumers.length := by omega
  unfold delivered
  rw [book_snoc]
  cases op with
  | check d =>
    revert hop
    simp only [step]
    (repeat' split) <;> intro hop <;> try rfl
    simp only [note]
    split
    · rename_i hx
      subst hx
      rcases hop with hop | hop
      · exact absurd rfl hop
      · exact absurd rfl (hop _ _)
    · rfl
  | publishStart p path bc =>
    simp only [step]
    (repeat' split) <;> try rfl
    simp only [note]
    split <;> rfl
  | consumePrefix p pre order =>
    simp only [step]
    (repeat' split) <;> try rfl
    simp only [note]
    rw [if_neg hne]
  | cloneStart d =>
    simp only [step]
    (repeat' split) <;> try rfl
    simp only [note]
    rw [if_neg hne]
  | cloneFinish d =>
    simp only [step]
    (repeat' split) <;> try rfl
    all_goals
      simp only [note]
      split <;> rfl
  | _ =>
    simp only [step]
    (repeat' split) <;> rfl

theorem begunBy_snoc (p : Nat) (tr : Trace) (e : Op × Out) :
    begunBy p (tr ++ [e]) = begunBy p tr ++ begunBy p [e] := by
  simp [begunBy]

theorem begunBy_other (p : Nat) (op : Op) (o : Out)
    (h : ∀ path bc, op ≠ .publishStart p path bc) : begunBy p [(op, o)] = [] := by
  unfold begunBy
  cases op with
  | publishStart q path bc =>
    have : q ≠ p := by rintro rfl; exact h path bc rfl
    cases o <;> simp [this]
  | _ => rfl

theorem Forward.flow {c p : Nat} {pre : Path} {ta tb : Trace} {a b : State}
    {held : Option (Path × Nat)} (h : Forward c p pre ta a tb b held) :
    begunBy p tb ++ held.toList = (delivered ta c).map (repath pre) := by
  induction h with
  | spawn h1 h2 h3 h4 h5 => rw [h4, h5]; rfl
  | source op hop hf ih => rw [delivered_other hf.reach.1 hf.made op (.inl hop)]; exact ih
  | target op hop hf ih => rw [begunBy_snoc, begunBy_other p op _ hop, List.append_nil]; exact ih
  | @next ta a tb b suffix bc he hf ih =>
    have : delivered (ta ++ [(.check c, .item suffix bc)]) c = delivered ta c ++ [(suffix, bc)] := by
      unfold delivered
      rw [book_snoc]
      simp [note]
    rw [this, List.map_append, ← ih]
    simp
  | idle he hf ih => rw [delivered_other hf.reach.1 hf.made _ (.inr he)]; exact ih
  | publish he hf ih =>
    rw [begunBy_snoc, ← ih]
    simp [begunBy]

end Verif.Model.Origin
