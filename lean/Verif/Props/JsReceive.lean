import Verif.Js.ReceiveLemmas
import Verif.Props.JsServe

/-!
# Property C105: receiving a subscription in the browser
-/

set_option autoImplicit false

namespace Verif.Props.JsReceive

open Verif Verif.Js Verif.Js.Receive Verif.Props.Grammar Verif.Props.JsWire

open Verif.Session (StreamEnd TransportError)
open Verif.Js.Serve (GroupClosed GroupAborted fate_reach)

/-! ## Specification -/

/-- The frames a group has, in a history of the receiver. -/
def received (tr : Trace) (g : Nat) : List Bytes := Track.content (trackTrace tr) g

/-- No frame is complete. -/
def NoFrame (bs : Bytes) : Prop := ∀ u rest b, bs = u ++ rest → ¬ Blob u b

/-- The length of a frame is more than JavaScript can count. -/
def TooLong (bs : Bytes) : Prop := ∃ len rest n, bs = len ++ rest ∧ Varint len n ∧ ¬ Safe n

/-- Bytes that are these frames, and something more. -/
def Reads (bs : Bytes) (fs : List Bytes) (rest : Bytes) : Prop :=
  ∃ used, bs = used ++ rest ∧ Items Blob used fs ∧ ∀ f ∈ fs, Safe f.length

/-- The group that stream `i` brings has not ended. -/
def Open (tr : Trace) (g : Nat) : Prop :=
  ¬ GroupClosed (trackTrace tr) g ∧ ¬ GroupAborted (trackTrace tr) g

/-! ## Lemmas -/

theorem short_none {bs : Bytes} (h : P.frame bs = .short) : NoFrame bs := by
  rintro u rest b rfl hb
  by_cases hs : Safe b.length
  · have h1 : P.frame (u ++ rest) = .ok b rest := blob_parse hb hs
    rw [h1] at h
    cases h
  · obtain ⟨len, rfl, hv⟩ := hb
    have h1 : P.u53 (len ++ b ++ rest) = .thrown .tooLarge := by
      rw [List.append_assoc]
      exact u53_large hv hs
    unfold P.frame at h
    rw [P.bind_thrown h1] at h
    cases h

theorem thrown_long {bs : Bytes} {e : JsError} (h : P.frame bs = .thrown e) : TooLong bs := by
  unfold P.frame P.bind at h
  split at h
  · unfold P.take at h
    dsimp only at h
    split at h <;> cases h
  · rename_i e' hu
    unfold P.u53 P.bind at hu
    split at hu
    · rename_i v rest hv
      dsimp only at hu
      obtain ⟨u, hu1, hu2⟩ := u62_inv hv
      split at hu
      · rename_i hn
        exact ⟨u, rest, v, hu1, hu2, by unfold MAX_U53 at hn; unfold Safe; omega⟩
      · cases hu
    · rename_i hv
      unfold P.u62 at hv
      split at hv <;> cases hv
    · cases hu
  · cases h

theorem TooLong.append {bs : Bytes} (h : TooLong bs) (more : Bytes) : TooLong (bs ++ more) := by
  obtain ⟨len, rest, n, rfl, h1, h2⟩ := h
  exact ⟨len, rest ++ more, n, by simp, h1, h2⟩

/-- What is known about a stream whose group the track took. -/
theorem brought {tr : Trace} {s : State} (h : machine.Reach tr s) {i g : Nat} (hb : Brings tr i g) :
    ∃ k x, s.tasks[i]? = some k ∧ k.group = some g ∧ TInv tr s.track i k ∧ GOk tr s.track i k g x ∧
      (x.status = .closed ↔ GroupClosed (trackTrace tr) g) ∧
      (x.status = .aborted ↔ GroupAborted (trackTrace tr) g) := by
  have inv := inv_reach h
  obtain ⟨k, hk, hg⟩ := (inv.brings i g).1 hb
  have ht := inv.task i k hk
  obtain ⟨x, hx⟩ := ht.group g hg
  obtain ⟨hm, hid⟩ := Track.find_mem hx.found
  have hf := fate_reach inv.track
  refine ⟨k, x, hk, hg, ht, hx, ?_, ?_⟩
  · rw [← hid]
    exact hf.closed x hm
  · rw [← hid]
    exact hf.aborted x hm

theorem taken_iff {tr : Trace} {s : State} (h : machine.Reach tr s) (g : Nat) :
    g ∈ taken tr ↔ ∃ i, Brings tr i g := by
  have inv := inv_reach h
  rw [inv.groups, List.mem_filterMap]
  constructor
  · rintro ⟨k, hk, hg⟩
    obtain ⟨i, hi⟩ := List.mem_iff_getElem?.1 hk
    exact ⟨i, (inv.brings i g).2 ⟨k, hi, hg⟩⟩
  · rintro ⟨i, hi⟩
    obtain ⟨k, hk, hg⟩ := (inv.brings i g).1 hi
    exact ⟨k, List.mem_of_getElem? hk, hg⟩

theorem not_both {tr : Trace} {s : State} (h : machine.Reach tr s) {i g : Nat} (hb : Brings tr i g)
    (hf : Finished tr i) : ¬ Failed tr i := by
  obtain ⟨k, -, -, -, ht, -⟩ := brought h hb
  intro hx
  obtain ⟨e, he⟩ := ht.failed.2 hx
  rw [ht.fin.2 hf] at he
  cases he

/-! ## Groups -/

/-- **C105, the track.**  The groups and frames of the readers are those of the track of C94. -/
theorem c105_track {tr : Trace} {s : State} (h : machine.Reach tr s) :
    Track.machine.Reach (trackTrace tr) s.track := (inv_reach h).track

/-- **C105, which groups.**  As long as the subscription has not ended, a stream is taken exactly if its
group is newer than all groups taken before; the others are dropped.  After the end of the subscription
every stream is refused. -/
theorem c105_taken {tr : Trace} {s : State} (h : machine.Reach tr s) (g : Nat) (rest : Bytes) :
    ((∃ i, (step s (.stream g rest)).1 = .inserted i) ↔
      (∀ ok, ¬ Ended tr ok) ∧ ∀ i g', Brings tr i g' → g' < g) ∧
    ((∃ i, (step s (.stream g rest)).1 = .dropped i) ↔
      (∀ ok, ¬ Ended tr ok) ∧ ∃ i g', Brings tr i g' ∧ g ≤ g') ∧
    ((step s (.stream g rest)).1 = .unknown ↔ ∃ ok, Ended tr ok) := by
  have inv := inv_reach h
  have hsort := (Track.inv_reach inv.track).track.sorted
  have hbelow : s.track.next ≤ g ↔ ∀ i g', Brings tr i g' → g' < g := by
    rw [inv.next]
    cases hl : (taken tr).getLast? with
    | none =>
      have he : taken tr = [] := List.getLast?_eq_none_iff.1 hl
      simp only [Option.map_none, Option.getD_none, Nat.zero_le, true_iff]
      intro i g' hb
      have := (taken_iff h g').2 ⟨i, hb⟩
      rw [he] at this
      cases this
    | some l =>
      simp only [Option.map_some, Option.getD_some]
      constructor
      · intro hlt i g' hb
        have := Track.le_last hsort hl g' ((taken_iff h g').2 ⟨i, hb⟩)
        omega
      · intro hall
        obtain ⟨i, hi⟩ := (taken_iff h l).1 (List.mem_of_getLast? hl)
        exact hall i l hi
  have hnot : g < s.track.next ↔ ∃ i g', Brings tr i g' ∧ g ≤ g' := by
    constructor
    · intro hlt
      refine Classical.byContradiction fun hn => ?_
      have : s.track.next ≤ g := hbelow.2 fun i g' hb => by
        refine Classical.byContradiction fun hge => hn ⟨i, g', hb, by omega⟩
      omega
    · rintro ⟨i, g', hb, hle⟩
      refine Classical.byContradiction fun hge => ?_
      have := hbelow.1 (by omega) i g' hb
      omega
  rw [← hbelow, ← hnot]
  unfold step
  dsimp only
  by_cases hs : s.over = true
  · rw [if_pos hs]
    obtain ⟨ok, hok⟩ := inv.over.1 hs
    refine ⟨⟨fun ⟨_, hx⟩ => (by cases hx), fun hx => absurd hok (hx.1 ok)⟩,
      ⟨fun ⟨_, hx⟩ => (by cases hx), fun hx => absurd hok (hx.1 ok)⟩, ⟨fun _ => ⟨ok, hok⟩, fun _ => rfl⟩⟩
  · rw [if_neg hs]
    have hno : ∀ ok, ¬ Ended tr ok := fun ok hok => hs (inv.over.2 ⟨ok, hok⟩)
    have hl := inv.live.1 (by simpa using hs)
    rcases insert_cases hl g with ⟨h1, h2⟩ | ⟨h1, h2⟩
    · rw [h2]
      refine ⟨⟨fun ⟨_, hx⟩ => (by cases hx), fun hx => ?_⟩, ⟨fun _ => ⟨hno, h1⟩, fun _ => ⟨_, rfl⟩⟩,
        ⟨fun hx => (by cases hx), fun ⟨ok, hx⟩ => absurd hx (hno ok)⟩⟩
      have := hx.2
      omega
    · rw [h2]
      refine ⟨⟨fun _ => ⟨hno, h1⟩, fun _ => ⟨_, rfl⟩⟩, ⟨fun ⟨_, hx⟩ => (by cases hx), fun hx => ?_⟩,
        ⟨fun hx => (by cases hx), fun ⟨ok, hx⟩ => absurd hx (hno ok)⟩⟩
      have := hx.2
      omega

/-- **C105, one stream, one group.**  A stream brings at most one group, and later streams bring newer
groups. -/
theorem c105_order {tr : Trace} {s : State} (h : machine.Reach tr s) {i j g g' : Nat}
    (hi : Brings tr i g) (hj : Brings tr j g') :
    (i = j → g = g') ∧ (i < j → g < g') := by
  have inv := inv_reach h
  obtain ⟨k, hk, hkg⟩ := (inv.brings i g).1 hi
  obtain ⟨l, hl, hlg⟩ := (inv.brings j g').1 hj
  refine ⟨?_, ?_⟩
  · rintro rfl
    rw [hk] at hl
    cases hl
    rw [hkg] at hlg
    cases hlg
    rfl
  · intro hij
    have hs := (Track.inv_reach inv.track).track.sorted
    have he : Track.accepted (trackTrace tr) = s.tasks.filterMap (·.group) := inv.groups
    rw [he, List.pairwise_filterMap, List.pairwise_iff_getElem] at hs
    obtain ⟨a1, a2⟩ := List.getElem?_eq_some_iff.1 hk
    obtain ⟨b1, b2⟩ := List.getElem?_eq_some_iff.1 hl
    exact hs i j a1 b1 hij g (by rw [a2]; exact hkg) g' (by rw [b2]; exact hlg)

/-! ## Frames -/

/-- **C105, frames.**  What a group has is the beginning of what its stream brought, frame by frame. -/
theorem c105_frames {tr : Trace} {s : State} (h : machine.Reach tr s) {i g : Nat} (hb : Brings tr i g) :
    ∃ rest, Reads (arrived tr i) (received tr g) rest := by
  obtain ⟨k, x, -, -, -, hx, -, -⟩ := brought h hb
  obtain ⟨used, lost, b1, b2, b3, -⟩ := hx.bytes
  exact ⟨k.reader.all ++ lost, used, by rw [b1]; simp, b2, b3⟩

/-- **C105, closed.**  A group is closed only if its stream was finished and the group has exactly the
frames of the stream; or a newer group was taken; or the subscription has ended. -/
theorem c105_closed {tr : Trace} {s : State} (h : machine.Reach tr s) {i g : Nat} (hb : Brings tr i g)
    (hc : GroupClosed (trackTrace tr) g) :
    (Finished tr i ∧ Reads (arrived tr i) (received tr g) []) ∨
    (∃ j g', Brings tr j g' ∧ g < g') ∨ ∃ ok, Ended tr ok := by
  obtain ⟨k, x, -, -, -, hx, h1, -⟩ := brought h hb
  refine (hx.closed (h1.2 hc)).imp ?_ (Or.imp ?_ id)
  · rintro ⟨a1, a2⟩
    obtain ⟨used, lost, b1, b2, b3, b4⟩ := hx.bytes
    rw [a2, b4 (not_both h hb a1)] at b1
    exact ⟨a1, used, by rw [b1]; simp, b2, b3⟩
  · rintro ⟨g', a1, a2⟩
    obtain ⟨j, hj⟩ := (taken_iff h g').1 a1
    exact ⟨j, g', hj, a2⟩

/-- **C105, aborted.**  A group is aborted only if its stream failed; or the stream was finished inside a
frame; or a frame is too long; or the subscription failed. -/
theorem c105_aborted {tr : Trace} {s : State} (h : machine.Reach tr s) {i g : Nat} (hb : Brings tr i g)
    (hc : GroupAborted (trackTrace tr) g) :
    Failed tr i ∨
    (∃ rest, rest ≠ [] ∧ Finished tr i ∧ Reads (arrived tr i) (received tr g) rest ∧ NoFrame rest) ∨
    (∃ rest, Reads (arrived tr i) (received tr g) rest ∧ TooLong rest) ∨ Ended tr false := by
  obtain ⟨k, x, -, -, -, hx, -, h1⟩ := brought h hb
  obtain ⟨used, lost, b1, b2, b3, b4⟩ := hx.bytes
  refine (hx.aborted (h1.2 hc)).imp id (Or.imp ?_ (Or.imp ?_ id))
  · rintro ⟨a1, a2, a3⟩
    rw [b4 (not_both h hb a1), List.append_nil] at b1
    exact ⟨_, a2, a1, ⟨used, b1, b2, b3⟩, short_none a3⟩
  · intro a1
    exact ⟨k.reader.all ++ lost, ⟨used, by rw [b1]; simp, b2, b3⟩, (thrown_long a1).append lost⟩

/-- A stream that waits. -/
theorem waits {tr : Trace} {s : State} (h : machine.Reach tr s) {i g : Nat} (hb : Brings tr i g)
    (hp : (step s (.race i)).1 = .pending ∨ (step s (.frame i)).1 = .pending) :
    ∃ k x, s.tasks[i]? = some k ∧ k.group = some g ∧ TInv tr s.track i k ∧ GOk tr s.track i k g x ∧
      k.phase ≠ .over ∧ k.reader.stream.ending = .idle ∧ NoFrame k.reader.all ∧
      ((step s (.race i)).1 = .pending → k.reader.all = [] ∧ k.phase = .idle) := by
  obtain ⟨k, x, hk, hg, ht, hx, -, -⟩ := brought h hb
  have e1 : (step s (.race i)).1 = (race s i k).1 := by
    show (onTask s i _).1 = _
    unfold onTask
    rw [hk]
  have e2 : (step s (.frame i)).1 = (Receive.frame s i k).1 := by
    show (onTask s i _).1 = _
    unfold onTask
    rw [hk]
  have r : (race s i k).1 = .pending → k.phase = .idle ∧ k.reader.all = [] ∧
      k.reader.stream.ending = .idle := by
    intro hp
    unfold race at hp
    split at hp
    · rename_i hph
      refine ⟨hph, ?_⟩
      rcases done_cases k.reader ht.pieces with ⟨-, r', h1, -⟩ | ⟨-, -, h3⟩ | ⟨-, -, e', h3⟩ | ⟨h1, h2, -⟩
      · rw [h1] at hp
        cases hp
      · rw [show done k.reader = (.ok true, (done k.reader).2) from Prod.ext h3 rfl] at hp
        cases hp
      · rw [show done k.reader = (.thrown e', (done k.reader).2) from Prod.ext h3 rfl] at hp
        cases hp
      · exact ⟨h1, h2⟩
    · cases hp
  have f : (Receive.frame s i k).1 = .pending → k.phase = .frame ∧ NoFrame k.reader.all ∧
      k.reader.stream.ending = .idle := by
    intro hp
    unfold Receive.frame at hp
    split at hp
    · rename_i hph
      refine ⟨hph, ?_⟩
      rcases frame_cases k.reader with ⟨b, rest, r', -, h2, -⟩ | ⟨-, e, h2⟩ | ⟨h1, h2⟩
      · rw [h2] at hp
        cases hp
      · rw [show decodeFrame k.reader = (.thrown e, (decodeFrame k.reader).2) from Prod.ext h2 rfl] at hp
        cases hp
      · refine ⟨short_none h1, ?_⟩
        rw [show decodeFrame k.reader = (starved k.reader.stream.ending, (decodeFrame k.reader).2) from
          Prod.ext h2 rfl] at hp
        cases he : k.reader.stream.ending with
        | idle => rfl
        | fin => rw [he] at hp; cases hp
        | failed e => rw [he] at hp; cases hp
    · cases hp
  rw [e1, e2] at hp
  rw [e1]
  rcases hp with hp | hp
  · obtain ⟨r1, r2, r3⟩ := r hp
    refine ⟨k, x, hk, hg, ht, hx, by rw [r1]; simp, r3, ?_, fun _ => ⟨r2, r1⟩⟩
    rw [r2]
    intro u rest b hub hblob
    obtain ⟨hu, -⟩ := List.append_eq_nil_iff.1 hub.symm
    subst hu
    obtain ⟨len, hl, hv⟩ := hblob
    obtain ⟨hl1, -⟩ := List.append_eq_nil_iff.1 hl.symm
    subst hl1
    obtain ⟨a, as, ha, -⟩ := hv
    cases ha
  · obtain ⟨f1, f2, f3⟩ := f hp
    refine ⟨k, x, hk, hg, ht, hx, by rw [f1]; simp, f3, f2, fun hq => ?_⟩
    have := (r hq).1
    rw [f1] at this
    cases this

/-- **C105, nothing is kept back.**  When a stream waits for more, its group has every complete frame
that has arrived, and neither the stream nor the group has ended. -/
theorem c105_waiting {tr : Trace} {s : State} (h : machine.Reach tr s) {i g : Nat} (hb : Brings tr i g)
    (hp : (step s (.race i)).1 = .pending ∨ (step s (.frame i)).1 = .pending) :
    (∃ rest, Reads (arrived tr i) (received tr g) rest ∧ NoFrame rest) ∧
    ¬ Finished tr i ∧ ¬ Failed tr i ∧ Open tr g := by
  obtain ⟨k, x, hk, hg, ht, hx, h1, h2, h3, -⟩ := waits h hb hp
  have nfin : ¬ Finished tr i := by rw [← ht.fin, h2]; simp
  have nfail : ¬ Failed tr i := by rw [← ht.failed, h2]; simp
  obtain ⟨used, lost, b1, b2, b3, b4⟩ := hx.bytes
  rw [b4 nfail, List.append_nil] at b1
  have hl := hx.live.1 h1
  obtain ⟨k', x', hk', -, -, hx', c1, c2⟩ := brought h hb
  have : x' = x := by
    have := hx'.found.symm.trans hx.found
    cases this
    rfl
  subst this
  refine ⟨⟨_, ⟨used, b1, b2, b3⟩, h3⟩, nfin, nfail, ?_, ?_⟩
  · rw [← c1, hl]
    simp
  · rw [← c2, hl]
    simp

/-! ## What was sent -/

/-- Frames read and frames sent are the same, as far as both go. -/
theorem reads_sent {used rest items cut : Bytes} {xs fs : List Bytes} (hu : Items Blob used xs)
    (hxs : ∀ f ∈ xs, Safe f.length) (hi : Items Blob items fs) (hfs : ∀ f ∈ fs, Safe f.length)
    (hcut : PartOf .frame cut) (he : used ++ rest = items ++ cut) :
    ∃ fs' items', fs = xs ++ fs' ∧ Items Blob items' fs' ∧ rest = items' ++ cut := by
  induction hu generalizing items fs with
  | nil => exact ⟨fs, items, rfl, hi, he⟩
  | @cons b1 b2 y ys h1 _ ih =>
    have p1 : P.frame (items ++ cut) = .ok y (b2 ++ rest) := by
      rw [← he, List.append_assoc]
      exact blob_parse h1 (hxs y (by simp))
    cases hi with
    | nil =>
      have : P.frame cut = .short := part_short (fun _ => []) .frame cut hcut
      rw [List.nil_append, this] at p1
      cases p1
    | @cons c1 c2 z zs k1 k2 =>
      have p2 : P.frame (c1 ++ c2 ++ cut) = .ok z (c2 ++ cut) := by
        rw [List.append_assoc]
        exact blob_parse k1 (hfs z (by simp))
      rw [p1] at p2
      injection p2 with q1 q2
      subst q1
      obtain ⟨fs', items', e1, e2, e3⟩ := ih (fun f hf => hxs f (by simp [hf])) k2
        (fun f hf => hfs f (by simp [hf])) q2
      exact ⟨fs', items', by rw [e1]; rfl, e2, e3⟩

theorem blob_ne {b : Bytes} : ¬ Blob [] b := by
  rintro ⟨len, hl, hv⟩
  obtain ⟨hl1, -⟩ := List.append_eq_nil_iff.1 hl.symm
  subst hl1
  obtain ⟨a, as, ha, -⟩ := hv
  cases ha

theorem items_none {fs : List Bytes} (h : Items Blob [] fs) : fs = [] := by
  generalize hb : ([] : Bytes) = bs at h
  cases h with
  | nil => rfl
  | cons h1 _ =>
    obtain ⟨rfl, -⟩ := List.append_eq_nil_iff.1 hb.symm
    exact absurd h1 blob_ne

theorem part_nil : PartOf .frame [] :=
  ⟨[7], [1, 7], ⟨⟨[1], rfl, _, _, rfl, rfl, rfl⟩, by show (1 : Nat) ≤ 2 ^ 53 - 1; omega⟩, by simp⟩

/-- **C105, frames that were sent.**  If what arrives is the beginning of what a sender put on the
stream, then the group has the beginning of the frames of the sender. -/
theorem c105_sent {tr : Trace} {s : State} (h : machine.Reach tr s) {i g : Nat} (hb : Brings tr i g)
    {bs cut : Bytes} {fs : List Bytes} (hbs : arrived tr i <+: bs) (hr : Reads bs fs cut)
    (hcut : PartOf .frame cut) : received tr g <+: fs := by
  obtain ⟨rest, used, e1, e2, e3⟩ := c105_frames h hb
  obtain ⟨items, f1, f2, f3⟩ := hr
  obtain ⟨more, hm⟩ := hbs
  obtain ⟨fs', -, k1, -, -⟩ := reads_sent (rest := rest ++ more) e2 e3 f2 f3 hcut (by
    rw [← f1, ← hm, e1]
    simp)
  exact ⟨fs', k1.symm⟩

/-- **C105, whole groups.**  A group that is closed, while it is the newest one of a subscription that
goes on, has exactly the frames that were sent on its stream. -/
theorem c105_whole {tr : Trace} {s : State} (h : machine.Reach tr s) {i g : Nat} (hb : Brings tr i g)
    (hc : GroupClosed (trackTrace tr) g) (hn : ∀ j g', Brings tr j g' → g' ≤ g)
    (he : ∀ ok, ¬ Ended tr ok) {fs : List Bytes} {cut : Bytes} (hr : Reads (arrived tr i) fs cut)
    (hcut : PartOf .frame cut) : Finished tr i ∧ received tr g = fs ∧ cut = [] := by
  rcases c105_closed h hb hc with ⟨h1, used, e1, e2, e3⟩ | ⟨j, g', h1, h2⟩ | ⟨ok, h1⟩
  · obtain ⟨items, f1, f2, f3⟩ := hr
    obtain ⟨fs', items', k1, k2, k3⟩ := reads_sent (rest := []) e2 e3 f2 f3 hcut (by rw [← f1, e1])
    obtain ⟨k4, k5⟩ := List.append_eq_nil_iff.1 k3.symm
    subst k4
    rw [items_none k2, List.append_nil] at k1
    exact ⟨h1, k1.symm, k5⟩
  · have := hn j g' h1
    omega
  · exact absurd h1 (he ok)

/-! ## Progress -/

/-- Steps of one stream. -/
def Own (i : Nat) (op : Op) : Prop := op = .race i ∨ op = .frame i

/-- All that has arrived was read. -/
structure Caught (tr : Trace) (s : State) (i g : Nat) (fs : List Bytes) (cut : Bytes) (fin : Prop) :
    Prop where
  frames : received tr g = fs
  closed : fin → cut = [] → GroupClosed (trackTrace tr) g
  aborted : fin → cut ≠ [] → GroupAborted (trackTrace tr) g
  waits : ¬ fin → (step s (.race i)).1 = .pending ∨ (step s (.frame i)).1 = .pending

/-- The stream gets there by its own steps. -/
def Reaches (tr : Trace) (s : State) (i g : Nat) (fs : List Bytes) (cut : Bytes) (fin : Prop) : Prop :=
  ∃ ops, (∀ op ∈ ops, Own i op) ∧
    Caught (tr ++ (machine.runFrom s ops).1) (machine.runFrom s ops).2 i g fs cut fin

/-- A stream with these frames to read. -/
structure Behind (tr : Trace) (s : State) (i g : Nat) (fs : List Bytes) (cut : Bytes) (fin : Prop)
    (k : Task) (todo : List Bytes) : Prop where
  reach : machine.Reach tr s
  task : s.tasks[i]? = some k
  group : k.group = some g
  fin : fin ↔ Finished tr i
  failed : ¬ Failed tr i
  bytes : ∃ items, k.reader.all = items ++ cut ∧ Items Blob items todo
  safe : ∀ f ∈ todo, Safe f.length
  frames : received tr g ++ todo = fs

theorem reaches_step {tr : Trace} {s : State} {i g : Nat} {fs : List Bytes} {cut : Bytes} {fin : Prop}
    {op : Op} (hop : Own i op)
    (h : Reaches (tr ++ [(op, (step s op).1)]) (step s op).2 i g fs cut fin) :
    Reaches tr s i g fs cut fin := by
  obtain ⟨ops, h1, h2⟩ := h
  refine ⟨op :: ops, ?_, ?_⟩
  · intro o ho
    rcases List.mem_cons.1 ho with rfl | ho
    · exact hop
    · exact h1 o ho
  · rw [List.append_assoc] at h2
    exact h2

theorem step_race {s : State} {i : Nat} {k : Task} (hk : s.tasks[i]? = some k) :
    step s (.race i) = race s i k := by
  show onTask s i _ = _
  unfold onTask
  rw [hk]

theorem step_frame {s : State} {i : Nat} {k : Task} (hk : s.tasks[i]? = some k) :
    step s (.frame i) = Receive.frame s i k := by
  show onTask s i _ = _
  unfold onTask
  rw [hk]

theorem put_get {s : State} {i : Nat} {k k' : Task} (hk : s.tasks[i]? = some k) :
    (s.tasks.set i k')[i]? = some k' :=
  List.getElem?_set_self (List.getElem?_eq_some_iff.1 hk).1

theorem behind_idle {tr : Trace} {s : State} {i g : Nat} {fs : List Bytes} {cut : Bytes} {fin : Prop}
    {k : Task} {todo : List Bytes} (hcut : PartOf .frame cut) (h : Behind tr s i g fs cut fin k todo)
    (hp : k.phase = .idle)
    (next : ∀ tr s k, Behind tr s i g fs cut fin k todo → k.phase = .frame → Reaches tr s i g fs cut fin) :
    Reaches tr s i g fs cut fin := by
  have inv := inv_reach h.reach
  have ht := inv.task i k h.task
  have hreach : machine.Reach (tr ++ [(.race i, (step s (.race i)).1)]) (step s (.race i)).2 :=
    Machine.Reach.step (M := machine) (.race i) h.reach
  rcases done_cases k.reader ht.pieces with ⟨-, r', h1, h2, h3, h4, h5⟩ | ⟨h1, h2, h3⟩ |
    ⟨-, h2, -⟩ | ⟨h1, h2, h3⟩
  · have hs : step s (.race i) = (.ok, put s i { k with reader := r', phase := .frame }) := by
      rw [step_race h.task]
      unfold race
      rw [hp]
      dsimp only
      rw [h1]
    refine reaches_step (.inl rfl) ?_
    rw [hs] at hreach ⊢
    refine next _ _ { k with reader := r', phase := .frame } ⟨hreach, put_get h.task, h.group, ?_, ?_, ?_,
      h.safe, ?_⟩ rfl
    · rw [h.fin, finished_snoc]
      exact ⟨.inl, fun x => x.resolve_right fun hx => (by cases hx)⟩
    · rw [failed_snoc]
      exact fun x => x.elim h.failed fun ⟨_, _, hx⟩ => (by cases hx)
    · obtain ⟨items, a1, a2⟩ := h.bytes
      exact ⟨items, h2.trans a1, a2⟩
    · have : received (tr ++ [(.race i, .ok)]) g = received tr g := by
        have := frames_snoc tr (.race i, .ok) g
        exact this.trans (List.append_nil _)
      rw [this]
      exact h.frames
  · obtain ⟨items, a1, a2⟩ := h.bytes
    obtain ⟨rfl, rfl⟩ := List.append_eq_nil_iff.1 (a1.symm.trans h1)
    have ho := items_none a2
    subst ho
    have hs : step s (.race i) = close s i k := by
      rw [step_race h.task]
      unfold race
      rw [hp]
      dsimp only
      rw [show done k.reader = (.ok true, (done k.reader).2) from Prod.ext h3 rfl]
    refine ⟨[.race i], fun op ho => .inl (by simpa using ho), ?_⟩
    show Caught (tr ++ [(.race i, (step s (.race i)).1)]) _ i g fs [] fin
    have ho : (step s (.race i)).1 = .closed (some g) := by
      rw [hs]
      show Out.closed k.group = _
      rw [h.group]
    rw [ho]
    have hfr : received (tr ++ [(.race i, .closed (some g))]) g = received tr g :=
      (frames_snoc tr (.race i, .closed (some g)) g).trans (List.append_nil _)
    refine ⟨?_, ?_, fun _ hx => absurd rfl hx, fun hx => absurd (h.fin.2 (ht.fin.1 h2)) hx⟩
    · rw [hfr, ← h.frames, List.append_nil]
    · intro _ _
      refine .inl ?_
      rw [trackTrace_snoc]
      exact List.mem_append_right _ (by simp [onTrack])
  · exact absurd (ht.failed.1 h2) h.failed
  · obtain ⟨items, a1, a2⟩ := h.bytes
    obtain ⟨rfl, rfl⟩ := List.append_eq_nil_iff.1 (a1.symm.trans h1)
    have ho := items_none a2
    subst ho
    have nfin : ¬ fin := by
      rw [h.fin, ← ht.fin, h2]
      simp
    refine ⟨[], fun op ho => (by cases ho), ?_⟩
    show Caught (tr ++ []) s i g fs [] fin
    rw [List.append_nil]
    refine ⟨by rw [← h.frames, List.append_nil], fun hx => absurd hx nfin, fun hx => absurd hx nfin,
      fun _ => .inl ?_⟩
    rw [step_race h.task]
    unfold race
    rw [hp]
    dsimp only
    rw [show done k.reader = (.waiting, (done k.reader).2) from Prod.ext h3 rfl]

theorem behind_frame {tr : Trace} {s : State} {i g : Nat} {fs : List Bytes} {cut : Bytes} {fin : Prop}
    {k : Task} {todo : List Bytes} (hcut : PartOf .frame cut) (h : Behind tr s i g fs cut fin k todo)
    (hp : k.phase = .frame)
    (next : ∀ f todo', todo = f :: todo' → ∀ tr s k, Behind tr s i g fs cut fin k todo' →
      k.phase = .idle → Reaches tr s i g fs cut fin) :
    Reaches tr s i g fs cut fin := by
  have inv := inv_reach h.reach
  have ht := inv.task i k h.task
  have hreach : machine.Reach (tr ++ [(.frame i, (step s (.frame i)).1)]) (step s (.frame i)).2 :=
    Machine.Reach.step (M := machine) (.frame i) h.reach
  obtain ⟨items, a1, a2⟩ := h.bytes
  cases a2 with
  | nil =>
    have hsh : P.frame k.reader.all = .short := by
      rw [a1]
      exact part_short (fun _ => []) .frame cut hcut
    have hd := (imp_frame k.reader).2.2 hsh
    have hne : cut ≠ [] := fun hx => all_ne (ht.full hp) (by rw [a1, hx]; rfl)
    cases he : k.reader.stream.ending with
    | failed e => exact absurd (ht.failed.1 ⟨e, he⟩) h.failed
    | fin =>
      rw [he] at hd
      have hs : step s (.frame i) = abort s i k := by
        rw [step_frame h.task]
        unfold Receive.frame
        rw [hp]
        dsimp only
        rw [show decodeFrame k.reader = (.thrown .endOfStream, (decodeFrame k.reader).2) from
          Prod.ext hd rfl]
      refine ⟨[.frame i], fun op ho => .inr (by simpa using ho), ?_⟩
      show Caught (tr ++ [(.frame i, (step s (.frame i)).1)]) _ i g fs cut fin
      have ho : (step s (.frame i)).1 = .aborted (some g) := by
        rw [hs]
        show Out.aborted k.group = _
        rw [h.group]
      rw [ho]
      have hfr : received (tr ++ [(.frame i, .aborted (some g))]) g = received tr g :=
        (frames_snoc tr (.frame i, .aborted (some g)) g).trans (List.append_nil _)
      refine ⟨?_, fun _ hx => absurd hx hne, ?_, fun hx => absurd (h.fin.2 (ht.fin.1 he)) hx⟩
      · rw [hfr, ← h.frames, List.append_nil]
      · intro _ _
        refine .inl ?_
        rw [trackTrace_snoc]
        exact List.mem_append_right _ (by simp [onTrack])
    | idle =>
      rw [he] at hd
      have nfin : ¬ fin := by
        rw [h.fin, ← ht.fin, he]
        simp
      refine ⟨[], fun op ho => (by cases ho), ?_⟩
      show Caught (tr ++ []) s i g fs cut fin
      rw [List.append_nil]
      refine ⟨by rw [← h.frames, List.append_nil], fun hx => absurd hx nfin, fun hx => absurd hx nfin,
        fun _ => .inr ?_⟩
      rw [step_frame h.task]
      unfold Receive.frame
      rw [hp]
      dsimp only
      rw [show decodeFrame k.reader = (.waiting, (decodeFrame k.reader).2) from Prod.ext hd rfl]
  | @cons b1 b2 f todo' k1 k2 =>
    have hok : P.frame k.reader.all = .ok f (b2 ++ cut) := by
      rw [a1, List.append_assoc]
      exact blob_parse k1 (h.safe f (by simp))
    obtain ⟨r', d1, d2, d3⟩ := (imp_frame k.reader).1 _ _ hok
    have hs : step s (.frame i) = (.wrote (some g) f,
        { put s i { k with reader := r', phase := .idle } with
          track := apply s.track (k.group.map fun g => .write g f) }) := by
      rw [step_frame h.task]
      unfold Receive.frame
      rw [hp]
      dsimp only
      rw [d1]
      dsimp only
      rw [h.group]
    refine reaches_step (.inr rfl) ?_
    rw [hs] at hreach ⊢
    refine next f todo' rfl _ _ { k with reader := r', phase := .idle } ⟨hreach, put_get h.task, h.group,
      ?_, ?_, ⟨b2, d2, k2⟩, fun x hx => h.safe x (by simp [hx]), ?_⟩ rfl
    · rw [h.fin, finished_snoc]
      exact ⟨.inl, fun x => x.resolve_right fun hx => (by cases hx)⟩
    · rw [failed_snoc]
      exact fun x => x.elim h.failed fun ⟨_, _, hx⟩ => (by cases hx)
    · have hc : Track.content (onTrack (.frame i, .wrote (some g) f)) g = [f] := by
        simp [onTrack, Track.content]
      have : received (tr ++ [(.frame i, .wrote (some g) f)]) g = received tr g ++ [f] :=
        (frames_snoc tr (.frame i, .wrote (some g) f) g).trans (by rw [hc]; rfl)
      rw [this, ← h.frames]
      simp

theorem behind_reaches {i g : Nat} {fs : List Bytes} {cut : Bytes} {fin : Prop}
    (hcut : PartOf .frame cut) (todo : List Bytes) :
    ∀ tr s k, Behind tr s i g fs cut fin k todo → k.phase ≠ .over → Reaches tr s i g fs cut fin := by
  induction todo with
  | nil =>
    have hf : ∀ tr s k, Behind tr s i g fs cut fin k [] → k.phase = .frame →
        Reaches tr s i g fs cut fin :=
      fun tr s k h hp => behind_frame hcut h hp fun f todo' hx => (by cases hx)
    intro tr s k h hp
    cases hph : k.phase with
    | over => exact absurd hph hp
    | frame => exact hf tr s k h hph
    | idle => exact behind_idle hcut h hph hf
  | cons f todo ih =>
    have hf : ∀ tr s k, Behind tr s i g fs cut fin k (f :: todo) → k.phase = .frame →
        Reaches tr s i g fs cut fin := by
      intro tr s k h hp
      refine behind_frame hcut h hp ?_
      intro f' todo' hx tr s k h' hp'
      cases hx
      exact ih tr s k h' (by rw [hp']; simp)
    intro tr s k h hp
    cases hph : k.phase with
    | over => exact absurd hph hp
    | frame => exact hf tr s k h hph
    | idle => exact behind_idle hcut h hph hf

/-- **C105, what arrives is delivered.**  A stream whose group has not ended and that did not fail gets,
by its own steps, to the point where the group has all frames that have arrived; and then the group is
closed if the stream was finished after a whole number of frames, aborted if it was finished inside a
frame, and otherwise waits for more. -/
theorem c105_delivers {tr : Trace} {s : State} (h : machine.Reach tr s) {i g : Nat} (hb : Brings tr i g)
    (ho : Open tr g) (hf : ¬ Failed tr i) {fs : List Bytes} {cut : Bytes}
    (hr : Reads (arrived tr i) fs cut) (hcut : PartOf .frame cut) :
    ∃ ops, (∀ op ∈ ops, Own i op) ∧
      received (tr ++ (machine.runFrom s ops).1) g = fs ∧
      (Finished tr i → cut = [] → GroupClosed (trackTrace (tr ++ (machine.runFrom s ops).1)) g) ∧
      (Finished tr i → cut ≠ [] → GroupAborted (trackTrace (tr ++ (machine.runFrom s ops).1)) g) ∧
      (¬ Finished tr i → (step (machine.runFrom s ops).2 (.race i)).1 = .pending ∨
        (step (machine.runFrom s ops).2 (.frame i)).1 = .pending) := by
  obtain ⟨k, x, hk, hg, ht, hx, c1, c2⟩ := brought h hb
  have hno : k.phase ≠ .over := by
    rw [hx.live]
    cases hs : x.status with
    | live => rfl
    | closed => exact absurd (c1.1 hs) ho.1
    | aborted => exact absurd (c2.1 hs) ho.2
  obtain ⟨used, lost, b1, b2, b3, b4⟩ := hx.bytes
  rw [b4 hf, List.append_nil] at b1
  obtain ⟨items, f1, f2, f3⟩ := hr
  obtain ⟨todo, items', k1, k2, k3⟩ := reads_sent b2 b3 f2 f3 hcut (by rw [← f1, b1])
  obtain ⟨ops, o1, o2⟩ := behind_reaches hcut todo tr s k (fin := Finished tr i) (fs := fs) (g := g)
    (i := i) ⟨h, hk, hg, Iff.rfl, hf, ⟨items', k3, k2⟩, fun f hf => f3 f (by rw [k1]; simp [hf]),
      k1.symm⟩ hno
  exact ⟨ops, o1, o2.frames, o2.closed, o2.aborted, o2.waits⟩

/-! ## Readers -/

/-- **C105, what readers get.**  Every frame that a reader of the track is given came in on a stream of
the subscription, as that frame of that group. -/
theorem c105_readers {tr : Trace} {s : State} (h : machine.Reach tr s) (c g k : Nat) (b : Bytes)
    (hd : (g, k, b) ∈ Track.delivered (trackTrace tr) c) :
    ∃ i fs rest, Brings tr i g ∧ Reads (arrived tr i) fs rest ∧ fs[k]? = some b := by
  have hr := c105_track h
  obtain ⟨-, h2, -⟩ := JsTrack.c94_frames hr c
  obtain ⟨a1, a2⟩ := h2 g k b hd
  obtain ⟨i, hi⟩ := (taken_iff h g).1 ((JsTrack.c94_groups hr c).1.subset a2)
  obtain ⟨rest, hrest⟩ := c105_frames h hi
  exact ⟨i, _, rest, hi, hrest, a1⟩

/-- **C105, when the subscription fails.**  A group whose stream is waiting is aborted, unless it is
closed because nobody reads it. -/
theorem c105_failed {tr : Trace} {s : State} (h : machine.Reach tr s) {i g : Nat} (hb : Brings tr i g)
    (he : Ended tr false) (hw : (step s (.race i)).1 = .pending) :
    (step s (.unusedTrack i)).1 = .aborted (some g) ∧
    GroupAborted (trackTrace (tr ++ [(.unusedTrack i, (step s (.unusedTrack i)).1)])) g := by
  obtain ⟨k, x, hk, hg, ht, hx, h1, h2, h3, h4⟩ := waits h hb (.inl hw)
  have hph := (h4 hw).2
  have hst := (inv_reach h).aborted.2 he
  have hs : step s (.unusedTrack i) = abort s i k := by
    show onTask s i _ = _
    unfold onTask
    rw [hk]
    dsimp only
    unfold unusedTrack
    rw [hph, hst]
  have ho : (step s (.unusedTrack i)).1 = .aborted (some g) := by
    rw [hs]
    show Out.aborted k.group = _
    rw [hg]
  refine ⟨ho, ?_⟩
  rw [ho]
  refine .inl ?_
  rw [trackTrace_snoc]
  exact List.mem_append_right _ (by simp [onTrack])

/-- The hypotheses of `c105_failed`. -/
example : ∃ tr s, machine.Reach tr s ∧ Brings tr 0 3 ∧ Ended tr false ∧
    (step s (.race 0)).1 = .pending := by
  refine ⟨_, _, machine.reach_run [.stream 3 [1, 7], .race 0, .frame 0, .ended false],
    ⟨[1, 7], by decide +kernel⟩, by unfold Ended; decide +kernel, by decide +kernel⟩

/-! ## Where a group is cut -/

/-- **C105 (violated): the end of the subscription cuts the groups that are still on the way.**  When the
peer has finished the stream of the subscription, a group whose stream has not ended can be closed as if
it were complete; its stream is cancelled. -/
theorem c105_cut {tr : Trace} {s : State} (h : machine.Reach tr s) {i g : Nat} (hb : Brings tr i g)
    (he : Ended tr true) (hw : (step s (.race i)).1 = .pending) :
    ¬ Finished tr i ∧ (step s (.unusedTrack i)).1 = .closed (some g) ∧
    GroupClosed (trackTrace (tr ++ [(.unusedTrack i, (step s (.unusedTrack i)).1)])) g ∧
    ∀ b, (step (step s (.unusedTrack i)).2 (.arrive i b)).1 = .invalid := by
  obtain ⟨k, x, hk, hg, ht, hx, h1, h2, h3, h4⟩ := waits h hb (.inl hw)
  have hph := (h4 hw).2
  have hst := (inv_reach h).closed.2 he
  have hs : step s (.unusedTrack i) = close s i k := by
    show onTask s i _ = _
    unfold onTask
    rw [hk]
    dsimp only
    unfold unusedTrack
    rw [hph, hst]
  have ho : (step s (.unusedTrack i)).1 = .closed (some g) := by
    rw [hs]
    show Out.closed k.group = _
    rw [hg]
  refine ⟨by rw [← ht.fin, h2]; simp, ho, ?_, ?_⟩
  · rw [ho]
    refine .inl ?_
    rw [trackTrace_snoc]
    exact List.mem_append_right _ (by simp [onTrack])
  · intro b
    rw [hs]
    have hget : (close s i k).2.tasks[i]? = some { k with phase := .over } := put_get hk
    show (onTask (close s i k).2 i _).1 = _
    unfold onTask
    rw [hget]
    dsimp only
    split
    · rfl
    · unfold receive Task.open
      rw [if_neg (by simp)]

/-- The peer sends group 3 with two frames, on a stream that is finished, and finishes the subscription.
A reader is given one frame and then the end, without an error; a group that arrives a moment later is
unknown. -/
theorem c105_cut_witness : ∃ tr s, machine.Reach tr s ∧ Brings tr 0 3 ∧
    received tr 3 = [[7]] ∧ GroupClosed (trackTrace tr) 3 ∧ ¬ Finished tr 0 ∧ ¬ Failed tr 0 ∧
    Track.delivered (trackTrace tr) 0 = [(3, 0, [7])] ∧
    (step s (.track (.nextFrame 0 .frame))).1 = .track .undefined ∧
    (step s (.arrive 0 [1, 8])).1 = .invalid ∧ (step s (.stream 4 [])).1 = .unknown := by
  refine ⟨_, _, machine.reach_run [.track .consume, .stream 3 [1, 7], .race 0, .frame 0, .ended true,
    .unusedTrack 0, .track (.run 0), .track (.nextFrame 0 .group), .track (.nextFrame 0 .frame), .track (.run 0)],
    ⟨[1, 7], by decide +kernel⟩, by decide +kernel, .inl (by decide +kernel),
    by unfold Finished; decide +kernel, ?_, by decide +kernel, by decide +kernel, by decide +kernel,
    by decide +kernel⟩
  rintro ⟨e, k, hx⟩
  simp [machine, Machine.run, Machine.runFrom] at hx

/-! ## Instances -/

/-- Two frames arrive in three pieces, then the end: the group is closed with both.  An older group is
dropped. -/
example : (machine.run [.stream 3 [1], .race 0, .frame 0, .arrive 0 [7, 2], .frame 0, .race 0,
    .stream 2 [], .arrive 0 [8, 9], .finish 0, .frame 0, .race 0]).1.map (·.2) =
    [.inserted 0, .ok, .pending, .ok, .wrote (some 3) [7], .ok, .dropped 1, .ok, .ok,
      .wrote (some 3) [8, 9], .closed (some 3)] := by decide +kernel

/-- A stream that ends inside a frame: the group is aborted. -/
example : (machine.run [.stream 3 [2, 7], .race 0, .finish 0, .frame 0]).1.map (·.2) =
    [.inserted 0, .ok, .ok, .aborted (some 3)] := by decide +kernel

/-- A frame whose length does not fit: the group is aborted. -/
example : (machine.run [.stream 3 [255, 255, 255, 255, 255, 255, 255, 255], .race 0, .frame 0]).1.map
    (·.2) = [.inserted 0, .ok, .aborted (some 3)] := by decide +kernel

/-- The hypotheses of `c105_closed`, `c105_whole` and `c105_delivers`. -/
example : ∃ tr s, machine.Reach tr s ∧ Brings tr 0 3 ∧ Finished tr 0 ∧ GroupClosed (trackTrace tr) 3 ∧
    received tr 3 = [[7], [8, 9]] ∧ Reads (arrived tr 0) [[7], [8, 9]] [] := by
  refine ⟨_, _, machine.reach_run [.stream 3 [1, 7, 2, 8, 9], .race 0, .frame 0, .race 0, .frame 0,
    .finish 0, .race 0], ⟨[1, 7, 2, 8, 9], by decide +kernel⟩, by unfold Finished; decide +kernel,
    .inl (by decide +kernel), by decide +kernel, [1, 7, 2, 8, 9], by decide +kernel,
    .cons (b1 := [1, 7]) ⟨[1], rfl, varint_small 1 (by omega)⟩
      (.cons (b1 := [2, 8, 9]) ⟨[2], rfl, varint_small 2 (by omega)⟩ .nil), ?_⟩
  intro f hf
  simp only [List.mem_cons, List.not_mem_nil, or_false] at hf
  rcases hf with rfl | rfl
  · show (1 : Nat) ≤ 2 ^ 53 - 1
    omega
  · show (2 : Nat) ≤ 2 ^ 53 - 1
    omega

end Verif.Props.JsReceive
