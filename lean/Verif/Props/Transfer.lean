import Verif.Session.TransferRecv
import Verif.Session.TransferServe
import Verif.Props.Message

/-!
# Properties C45–C47: the transfer of a group over a stream
-/

set_option autoImplicit false

namespace Verif.Props.Transfer

open Verif Verif.Coding Verif.Message Verif.Session Verif.Session.Transfer
open Verif.Session.Transfer.Spec
open Verif.Model (Group.Op Group.Out Group.State Group.machine Group.init Group.step)
open Verif.Model.Group.Spec (Trace received ConsumerAlive appended frameTrace closing)

/-! ## Auxiliary facts -/

theorem header_split {subscribe sequence : Nat} {header : Bytes}
    (h : groupHeader subscribe sequence = .ok header) (rest : Bytes) :
    ∃ m, decodeDataType (header ++ rest) = .ok (.group, m) ∧
      decodeGroup m = .ok (⟨subscribe, sequence⟩, rest) := by
  obtain ⟨a, b, ha, hb, rfl⟩ := wire_seq_ok.1 h
  refine ⟨b ++ rest, ?_, rt_group _ b rest hb⟩
  rw [List.append_assoc]
  exact rt_dataType _ a _ ha

/-- What acceptance means in terms of the bytes. -/
theorem accepts_bytes {stream : RecvStream} (hp : ∀ c ∈ stream.chunks, c ≠ []) {g : Message.Group}
    {r : Reader} (h : Accepts stream g r) :
    r.Ok ∧ r.stream.ending = stream.ending ∧
      ∃ m, decodeDataType stream.chunks.flatten = .ok (.group, m) ∧
        decodeGroup m = .ok (g, r.content) := by
  obtain ⟨r', h1, h2⟩ := h
  have hok : (Reader.new stream).Ok := hp
  obtain ⟨a1, a2, a3, a4⟩ := decode_spec good_dataType (Reader.new stream) hok
  have hcont : (Reader.new stream).content = stream.chunks.flatten := rfl
  rw [hcont] at a1 a2
  unfold runData at h1
  generalize (Reader.new stream).decode decodeDataType = dm at a1 a2 a3 a4 h1
  obtain ⟨o, r1⟩ := dm
  simp only at a1 a2 a3 a4
  have hr1 : o = .done (.ok .group) ∧ r1 = r' := by
    cases o with
    | waiting => cases h1
    | done v =>
      cases v with
      | error e => cases h1
      | ok t => cases t; exact ⟨rfl, by injection h1⟩
  obtain ⟨rfl, rfl⟩ := hr1
  obtain ⟨b1, b2, b3, b4⟩ := decode_spec good_group r1 a4
  rw [h2] at b1 b2 b3 b4
  simp only at b1 b2 b3 b4
  refine ⟨b4, b3.trans a3, r1.content, ?_, ?_⟩
  · have := a1.symm
    revert this a2
    unfold specDecode
    cases decodeDataType stream.chunks.flatten with
    | ok v => obtain ⟨t, m⟩ := v; intro h1 h2; cases t; rw [h1]
    | error e => cases e <;> simp; cases (Reader.new stream).stream.ending <;> simp
  · have := b1.symm
    revert this b2
    unfold specDecode
    cases decodeGroup r1.content with
    | ok v => obtain ⟨t, m⟩ := v; intro h1 h2; simp at h2; rw [h1, h2]
    | error e => cases e <;> simp; cases r1.stream.ending <;> simp

/-- What acceptance means for the bytes of a sender. -/
theorem accepts_sent {subscribe sequence : Nat} {header w t : Bytes} {stream : RecvStream}
    (hh : groupHeader subscribe sequence = .ok header)
    (hs : stream.chunks.flatten ++ t = header ++ w)
    (hp : ∀ c ∈ stream.chunks, c ≠ []) {g : Message.Group} {r : Reader} (h : Accepts stream g r) :
    r.Ok ∧ r.stream.ending = stream.ending ∧ g = ⟨subscribe, sequence⟩ ∧ r.content ++ t = w := by
  obtain ⟨h1, h2, m, h3, h4⟩ := accepts_bytes hp h
  obtain ⟨m', g1, g2⟩ := header_split hh w
  have e1 := decode_more good_dataType (t := t) h3
  rw [hs, g1] at e1
  injection e1 with e1
  injection e1 with _ e1
  subst e1
  have e2 := decode_more good_group (t := t) h4
  rw [g2] at e2
  injection e2 with e2
  injection e2 with e2 e3
  exact ⟨h1, h2, e2.symm, e3.symm⟩

theorem sent_butLast {c : Nat} {header : Bytes} {tr : Trace} {s : Group.State} {x : Sending}
    {G : List (Nat × Bytes)} (h : Sent c header tr s x G) : ButLast G := by
  intro A e B hG hB
  obtain ⟨f, fs, _, _, _, h4⟩ := h.frames A.length e.1 e.2 (by rw [hG]; simp)
  refine (h4 (.inl ?_)).2
  rw [hG]
  cases B with
  | nil => exact absurd rfl hB
  | cons b B => simp

theorem sent_le {c : Nat} {header : Bytes} {tr : Trace} {s : Group.State} {x : Sending}
    {G : List (Nat × Bytes)} (h : Sent c header tr s x G)
    (hx : ∀ (f size : Nat) fs, s.frames[f]? = some (size, fs) → Model.Frame.Exact size fs) :
    ∀ e ∈ G, e.2.length ≤ e.1 := by
  intro e he
  obtain ⟨k, hk, rfl⟩ := List.getElem_of_mem he
  obtain ⟨f, fs, h1, h2, h3, h4⟩ := h.frames k G[k].1 G[k].2 (List.getElem?_eq_getElem hk)
  exact h3.length_le.trans (hx f _ fs h2).bound

/-- What was sent of each frame is a prefix of its content. -/
theorem sent_contents {c : Nat} {header : Bytes} {tr : Trace} {s : Group.State} {x : Sending}
    {G : List (Nat × Bytes)} (h : Sent c header tr s x G) (hr : Group.machine.Reach tr s)
    {k size : Nat} {d : Bytes} (hk : G[k]? = some (size, d)) :
    ∃ d', (contents tr)[k]? = some (size, d') ∧ d <+: d' := by
  obtain ⟨f, fs, h1, h2, h3, h4⟩ := h.frames k size d hk
  refine ⟨fs.chunks.flatten, ?_, h3⟩
  rw [contents_reach hr, List.getElem?_map, h1]
  simp only [Option.map_some, frameAt, h2]

theorem sent_fin {c : Nat} {header : Bytes} {tr : Trace} {s : Group.State} {x : Sending}
    {G : List (Nat × Bytes)} (h : Sent c header tr s x G) (hr : Group.machine.Reach tr s)
    (hx : ∀ (f size : Nat) fs, s.frames[f]? = some (size, fs) → Model.Frame.Exact size fs)
    (hf : x.ending = .fin) : contents tr = G ∧ ∀ e ∈ G, e.2.length = e.1 := by
  constructor
  · rw [contents_reach hr]
    apply List.ext_getElem?
    intro k
    rw [List.getElem?_map]
    by_cases hk : k < G.length
    · obtain ⟨f, fs, h1, h2, h3, h4⟩ := h.frames k G[k].1 G[k].2 (List.getElem?_eq_getElem hk)
      have hl := (h4 (.inr (.inr hf))).2
      have hb := (hx f _ fs h2).bound
      have : G[k].2 = fs.chunks.flatten := h3.eq_of_length (by have := h3.length_le; omega)
      rw [h1, List.getElem?_eq_getElem hk]
      simp only [Option.map_some, frameAt, h2, ← this]
    · have := (h.fin hf).1
      rw [List.getElem?_eq_none (by omega), List.getElem?_eq_none (by omega)]
      rfl
  · intro e he
    obtain ⟨k, hk, rfl⟩ := List.getElem_of_mem he
    obtain ⟨f, fs, _, _, _, h4⟩ := h.frames k G[k].1 G[k].2 (List.getElem?_eq_getElem hk)
    exact (h4 (.inr (.inr hf))).2

/-! ## C46 -/

/-- C46, publisher: the stream is finished only after the group was finished by a producer, and
then all frames of the group were finished and sent.  In particular it is not finished if the group
or one of its frames was aborted instead. -/
theorem c46_fin_complete {c subscribe sequence : Nat} {tr : Trace} {s : Group.State} {x : Sending}
    (h : Serve c subscribe sequence tr s x) (hn : NoClones tr) (hf : x.ending = .fin) :
    (∃ p, (Group.Op.finish p, Group.Out.ok) ∈ tr) ∧
    (∀ k, k < (contents tr).length → Finished tr k) ∧
    ∃ header w, groupHeader subscribe sequence = .ok header ∧ WireOf (contents tr) w ∧
      x.sent = header ++ w := by
  obtain ⟨header, G, hh, hS⟩ := serve_sent h hn
  have hex := exact_frames h.reach hn
  obtain ⟨hc, _⟩ := sent_fin hS h.reach hex hf
  obtain ⟨w, hw1, hw2⟩ := hS.wire
  refine ⟨(hS.fin hf).2.1, ?_, header, w, hh, by rw [hc]; exact hw1, hw2⟩
  intro k hk
  rw [hc] at hk
  obtain ⟨f, fs, h1, h2, _, h4⟩ := hS.frames k G[k].1 G[k].2 (List.getElem?_eq_getElem hk)
  exact (finished_reach h.reach k).2 ⟨f, _, fs, h1, h2, (h4 (.inr (.inr hf))).1⟩

/-- C46: whatever the publisher, the network and the consumers on both sides do, the frames the
receiver has are those of the publisher in order, with the declared sizes and prefixes of the
bytes; a frame finished at the receiver has exactly the bytes of the publisher's frame; and the
group is finished at the receiver only if the publisher's group was finished and everything
arrived. -/
theorem c46_prefix {c subscribe sequence : Nat} {tr : Trace} {s : Group.State} {x : Sending}
    (h : Serve c subscribe sequence tr s x) (hn : NoClones tr) {stream : RecvStream}
    (hd : Delivers x stream) {g : Message.Group} {r₀ : Reader} (ha : Accepts stream g r₀)
    {d : Bool} {tr' : Trace} {s' : Group.State} {y : Receiving} (hr : Recv r₀ d tr' s' y) :
    g = ⟨subscribe, sequence⟩ ∧
    (∀ (k size : Nat) (q : Bytes), (contents tr')[k]? = some (size, q) →
      ∃ q', (contents tr)[k]? = some (size, q') ∧ q <+: q' ∧
        (Finished tr' k → q = q' ∧ q.length = size)) ∧
    (closing tr' = some (.ok ()) → x.ending = .fin ∧ contents tr' = contents tr ∧
      (∀ k, k < (contents tr').length → Finished tr' k) ∧
      ∃ p, (Group.Op.finish p, Group.Out.ok) ∈ tr) := by
  obtain ⟨header, G, hh, hS⟩ := serve_sent h hn
  have hex := exact_frames h.reach hn
  obtain ⟨w, hw1, hw2⟩ := hS.wire
  obtain ⟨t, ht⟩ := hd.bytes
  rw [hw2] at ht
  obtain ⟨hok, hend, rfl, hcont⟩ := accepts_sent hh ht hd.pieces ha
  obtain ⟨F, hF⟩ := recv_got hok hr
  have hcF := hF.contents hr.reach
  have hle := sent_le hS hex
  obtain ⟨m1, m2⟩ := reads_match hF.reads G t (by rw [hcont]; exact hw1) (sent_butLast hS) hle
  refine ⟨rfl, ?_, ?_⟩
  · intro k size q hk
    rw [hcF] at hk
    have hkl := (List.getElem?_eq_some_iff.1 hk).1
    have key : ∃ d, G[k]? = some (size, d) ∧ q <+: d := by
      rcases List.eq_nil_or_concat F with rfl | ⟨F', ⟨size', p⟩, hFe⟩
      · simp at hkl
      · rw [List.concat_eq_append] at hFe
        obtain ⟨dd, G', w', hG, hG', hkey⟩ := m2 F' size' p hFe
        by_cases hkk : k < F'.length
        · refine ⟨q, ?_, List.prefix_refl _⟩
          rw [hG, List.getElem?_append_left hkk]
          rw [hFe, List.getElem?_append_left hkk] at hk
          exact hk
        · have hkF : k = F'.length := by
            rw [hFe] at hkl
            simp at hkl
            omega
          subst hkF
          rw [hFe] at hk
          simp only [List.getElem?_concat_length] at hk
          cases hk
          refine ⟨dd, by rw [hG]; simp, ?_⟩
          have hpl : q.length ≤ size := reads_le hF.reads (size, q) (by rw [hFe]; simp)
          by_cases hdl : q.length ≤ dd.length
          · exact List.prefix_of_prefix_length_le ⟨_, hkey⟩ ⟨w', rfl⟩ hdl
          · exfalso
            cases G' with
            | nil =>
              have : w' = [] := hG'
              rw [this, List.append_nil] at hkey
              have := congrArg List.length hkey
              rw [List.length_append] at this
              omega
            | cons e G'' =>
              have := sent_butLast hS F' (size, dd) (e :: G'') hG (by simp)
              simp only at this
              omega
    obtain ⟨dd, hG, hpre⟩ := key
    obtain ⟨d', hd', hpre'⟩ := sent_contents hS h.reach hG
    refine ⟨d', hd', hpre.trans hpre', fun hfin => ?_⟩
    obtain ⟨size2, p2, hk2, hl⟩ := hF.finished hr.reach hfin
    have he := Option.some.inj (hk.symm.trans hk2)
    cases he
    refine ⟨(hpre.trans hpre').eq_of_length ?_, hl⟩
    have hb : d'.length ≤ size := by
      rw [contents_reach h.reach, List.getElem?_map, Option.map_eq_some_iff] at hd'
      obtain ⟨f, hf, hfa⟩ := hd'
      have hI := Model.Group.inv_reach h.reach
      have hlt := hI.serves.exist f (List.mem_of_getElem? hf)
      have hg : s.frames[f]? = some (s.frames[f].1, s.frames[f].2) := List.getElem?_eq_getElem hlt
      unfold frameAt at hfa
      rw [hg] at hfa
      have hb := (hex f _ _ hg).bound
      cases hfa
      exact hb
    have := (hpre.trans hpre').length_le
    omega
  · intro hclose
    have hcl : s'.closed = some (.ok ()) := by
      rw [← (Model.Group.inv_reach hr.reach).agrees.closed]; exact hclose
    have hp := hF.phase
    unfold PhaseOk at hp
    have hdone : AllDone s' ∧ y.reader.content = [] ∧ r₀.stream.ending = .fin := by
      split at hp
      · rw [hcl] at hp; exact absurd hp.2.2.1 (by simp)
      · rw [hcl] at hp; exact absurd hp.2.1 (by simp)
      · rw [hcl] at hp; exact absurd hp.1 (by simp)
      · obtain ⟨v, h1, h2, _⟩ := hp
        rw [hcl] at h1
        cases h1
        exact h2 rfl
    obtain ⟨hall, hemp, hfin⟩ := hdone
    obtain ⟨hxf, hflat⟩ := hd.fin (by rw [← hend]; exact hfin)
    have ht0 : t = [] := by
      rw [← hw2, ← hflat] at ht
      have := congrArg List.length ht
      rw [List.length_append] at this
      exact List.eq_nil_of_length_eq_zero (by omega)
    have comp : ∀ e ∈ F, e.2.length = e.1 := by
      intro e he
      obtain ⟨k, hk, rfl⟩ := List.getElem_of_mem he
      obtain ⟨fs, h1, h2, h3, h4⟩ := hF.frames k F[k].1 F[k].2 (List.getElem?_eq_getElem hk)
      exact h3 (hall k _ fs h1)
    obtain ⟨G', hG, hG'⟩ := m1 comp
    rw [hemp, ht0] at hG'
    have hG0 : G' = [] := by
      cases G' with
      | nil => rfl
      | cons e G'' =>
        obtain ⟨sz, dd⟩ := e
        obtain ⟨_, _, hdec⟩ := wire_decode hG'
        exact absurd hdec (decodeFrame_nil _)
    rw [hG0, List.append_nil] at hG
    refine ⟨hxf, ?_, ?_, (hS.fin hxf).2.1⟩
    · rw [hcF, (sent_fin hS h.reach hex hxf).1, hG]
    · intro k hk
      rw [hcF] at hk
      obtain ⟨fs, h1, _⟩ := hF.frames k F[k].1 F[k].2 (List.getElem?_eq_getElem hk)
      refine (finished_reach hr.reach k).2 ⟨k, _, fs, ?_, h1, hall k _ fs h1⟩
      rw [hF.list, List.getElem?_range hk]

/-- C46: a stream that does not end cleanly never gives a finished group, and when the receiver is
done with it the group is aborted. -/
theorem c46_error {r₀ : Reader} (hok : r₀.Ok) (he : r₀.stream.ending ≠ .fin) {d : Bool}
    {tr' : Trace} {s' : Group.State} {y : Receiving} (hr : Recv r₀ d tr' s' y) :
    closing tr' ≠ some (.ok ()) ∧
    (y.phase = .done → ∃ e, closing tr' = some (.error e)) := by
  obtain ⟨F, hF⟩ := recv_got hok hr
  have hp := hF.phase
  unfold PhaseOk at hp
  rw [(Model.Group.inv_reach hr.reach).agrees.closed]
  split at hp
  · rename_i hx
    exact ⟨by rw [hp.2.2.1]; simp, fun h => by rw [hx] at h; cases h⟩
  · rename_i hx
    exact ⟨by rw [hp.2.1]; simp, fun h => by rw [hx] at h; cases h⟩
  · rename_i hx
    exact ⟨by rw [hp.1]; simp, fun h => by rw [hx] at h; cases h⟩
  · obtain ⟨v, h1, h2, _⟩ := hp
    rw [h1]
    cases v with
    | ok u => exact absurd (h2 rfl).2.2 he
    | error e => exact ⟨by simp, fun _ => ⟨e, rfl⟩⟩

/-! ## C45 -/

/-- C45: the stream of a publisher is accepted as a group stream with the subscription id and the
sequence number, as soon as its first bytes arrive. -/
theorem c45_opens {c subscribe sequence : Nat} {tr : Trace} {s : Group.State} {x : Sending}
    (h : Serve c subscribe sequence tr s x) (hn : NoClones tr) {stream : RecvStream}
    (hs : stream.chunks.flatten = x.sent) (hp : ∀ c ∈ stream.chunks, c ≠ []) :
    ∃ r₀, Accepts stream ⟨subscribe, sequence⟩ r₀ := by
  obtain ⟨header, G, hh, hS⟩ := serve_sent h hn
  obtain ⟨w, _, hw2⟩ := hS.wire
  obtain ⟨m, h1, h2⟩ := header_split hh w
  obtain ⟨a1, a2, a3, a4⟩ := decode_spec good_dataType (Reader.new stream) hp
  have hcont : (Reader.new stream).content = header ++ w := by rw [← hw2, ← hs]; rfl
  rw [hcont] at a1 a2
  unfold specDecode at a1 a2
  rw [h1] at a1 a2
  obtain ⟨b1, b2, b3, b4⟩ := decode_spec good_group _ a4
  rw [a2] at b1
  unfold specDecode at b1
  rw [h2] at b1
  refine ⟨(((Reader.new stream).decode decodeDataType).2.decode decodeGroup).2,
    ((Reader.new stream).decode decodeDataType).2, ?_, ?_⟩
  · unfold runData
    generalize (Reader.new stream).decode decodeDataType = dm at a1
    obtain ⟨o, r⟩ := dm
    simp only at a1
    subst a1
    rfl
  · exact Prod.ext b1 rfl

/-- C45: if the publisher served the group to its end and the stream arrives, then, however the
bytes are split, when the receiver is done the group has the same frames with the same bytes in the
same order, all of them finished, and is finished. -/
theorem c45_transfer {c subscribe sequence : Nat} {tr : Trace} {s : Group.State} {x : Sending}
    (h : Serve c subscribe sequence tr s x) (hn : NoClones tr) (hfin : x.ending = .fin)
    {stream : RecvStream} (hs : stream.chunks.flatten = x.sent) (hp : ∀ c ∈ stream.chunks, c ≠ [])
    (he : stream.ending = .fin) {g : Message.Group} {r₀ : Reader} (ha : Accepts stream g r₀)
    {tr' : Trace} {s' : Group.State} {y : Receiving} (hr : Recv r₀ false tr' s' y)
    (hy : y.phase = .done) :
    g = ⟨subscribe, sequence⟩ ∧ contents tr' = contents tr ∧ closing tr' = some (.ok ()) ∧
      ∀ k, k < (contents tr').length → Finished tr' k := by
  have hd : Delivers x stream := ⟨by rw [hs]; exact List.prefix_refl _, hp, fun _ => ⟨hfin, hs⟩⟩
  obtain ⟨hg, _, hcomp⟩ := c46_prefix h hn hd ha hr
  have hclose : closing tr' = some (.ok ()) := by
    obtain ⟨header, G, hh, hS⟩ := serve_sent h hn
    have hex := exact_frames h.reach hn
    obtain ⟨w, hw1, hw2⟩ := hS.wire
    obtain ⟨hok, hend, _, hcont⟩ := accepts_sent (t := []) hh (by rw [List.append_nil, hs, hw2]) hp ha
    obtain ⟨F, hF⟩ := recv_got hok hr
    obtain ⟨_, hfull⟩ := sent_fin hS h.reach hex hfin
    obtain ⟨m1, m2⟩ := reads_match hF.reads G [] (by rw [hcont]; exact hw1) (sent_butLast hS)
      (sent_le hS hex)
    have hp := hF.phase
    unfold PhaseOk at hp
    rw [hy] at hp
    obtain ⟨v, h1, _, h3⟩ := hp
    rw [(Model.Group.inv_reach hr.reach).agrees.closed, h1]
    cases v with
    | ok u => rfl
    | error e =>
      exfalso
      rcases h3 e rfl with hx | ⟨e', _, hw⟩
      · cases hx
      · rcases hw with ⟨t, ht, _⟩ | ⟨hne, hall, de, hdec, _⟩ | ⟨_, hemp, ⟨F', size, p, hFe, hlt⟩, _⟩
        · rw [hend, he] at ht; cases ht
        · obtain ⟨G', rfl, hG'⟩ := m1 hall
          rw [List.append_nil] at hG'
          cases G' with
          | nil => exact hne hG'
          | cons e G'' =>
            obtain ⟨sz, dd⟩ := e
            obtain ⟨_, _, hok⟩ := wire_decode hG'
            rw [hdec] at hok; cases hok
        · obtain ⟨dd, G', w', hG, _, hkey⟩ := m2 F' size p hFe
          have := hfull (size, dd) (by rw [hG]; simp)
          rw [hemp, List.nil_append, List.append_nil] at hkey
          have := congrArg List.length hkey
          rw [List.length_append] at this
          simp only at *
          omega
  obtain ⟨_, h2, h3, _⟩ := hcomp hclose
  exact ⟨hg, h2, hclose, h3⟩

/-- A number that goes down with every step of the receiver. -/
def left (x : Receiving) : Nat :=
  4 * x.reader.content.length + match x.phase with
    | .payload _ _ => 3
    | .header _ => 2
    | .failing _ => 1
    | .done => 0

theorem step_left {x : Receiving} (hok : x.reader.Ok) (he : x.reader.stream.ending ≠ .idle) :
    x.step.2.reader.Ok ∧ x.step.2.reader.stream.ending ≠ .idle ∧
      (x.phase = .done ∨ left x.step.2 < left x) ∧
      (x.phase = .done → x.step.2.phase = .done) := by
  unfold Receiving.step left
  cases hx : x.phase with
  | header n =>
    simp only
    obtain ⟨o1, o2, o3⟩ := header_outcome x.reader hok
    generalize x.reader.decodeMaybe decodeFrame = dm at o1 o2 o3
    obtain ⟨out, r'⟩ := dm
    simp only at o1 o2 o3 ⊢
    rcases o3 with ⟨rfl, hi, hc⟩ | ⟨size, rfl, hd⟩ | ⟨rfl, hc, hf, hc'⟩ | ⟨e, rfl, hc, hw⟩
    · exact absurd hi he
    · refine ⟨o2, by rw [o1]; exact he, .inr ?_, fun h => by cases h⟩
      obtain ⟨used, hu, hmore⟩ := good_frame.1 _ _ _ hd
      have hne : used ≠ [] := by
        intro h0
        have := hmore []
        rw [h0] at this
        exact decodeFrame_nil _ this
      have hlen : 0 < used.length := List.length_pos_iff.2 hne
      have := congrArg List.length hu
      rw [List.length_append] at this
      simp only
      omega
    · refine ⟨o2, by rw [o1]; exact he, .inr ?_, fun h => by cases h⟩
      simp only [hc', hc]; decide
    · refine ⟨o2, by rw [o1]; exact he, .inr ?_, fun h => by cases h⟩
      simp only [hc]; omega
  | payload n remain =>
    cases remain with
    | zero => exact ⟨hok, he, .inr (by simp), fun h => by cases h⟩
    | succ remain =>
      simp only
      obtain ⟨o3, o1, o2⟩ := read_spec (remain + 1) (Nat.succ_pos _) x.reader hok
      generalize x.reader.read (remain + 1) = dm at o1 o2 o3
      obtain ⟨out, r'⟩ := dm
      simp only at o1 o2 o3 ⊢
      rcases o3 with ⟨data, rfl, hpos, hmax, hcont⟩ | ⟨hempty, hout, hr'⟩
      · simp only
        rw [if_pos hmax]
        refine ⟨o2, by rw [o1]; exact he, .inr ?_, fun h => by cases h⟩
        have := congrArg List.length hcont
        rw [List.length_append] at this
        simp only
        omega
      · have hr' : x.reader = r' := hr'.symm
        subst hr'
        cases hend : x.reader.stream.ending with
        | idle => exact absurd hend he
        | fin =>
          rw [hend] at hout
          subst hout
          exact ⟨hok, he, .inr (by show 4 * x.reader.content.length + 1 < 4 * x.reader.content.length + 3; omega), fun h => by cases h⟩
        | failed t =>
          rw [hend] at hout
          subst hout
          exact ⟨hok, he, .inr (by show 4 * x.reader.content.length + 1 < 4 * x.reader.content.length + 3; omega), fun h => by cases h⟩
  | failing e => exact ⟨hok, he, .inr (by simp), fun h => by cases h⟩
  | done => exact ⟨hok, he, .inl rfl, fun _ => hx⟩

/-- C45: the receiver gets done.  Once the stream has ended or failed, it takes finitely many steps,
whatever the consumers do in between (they do not influence the receiver). -/
theorem c45_progress {r₀ : Reader} (hok : r₀.Ok) (he : r₀.stream.ending ≠ .idle) {d : Bool}
    {tr' : Trace} {s' : Group.State} {y : Receiving} (hr : Recv r₀ d tr' s' y) :
    ∃ n, ∀ m, n ≤ m → (after m y).phase = .done := by
  obtain ⟨F, hF⟩ := recv_got hok hr
  have hok' := hF.ok
  have he' : y.reader.stream.ending ≠ .idle := by rw [hF.ending]; exact he
  clear hF hr
  have stay : ∀ m (y : Receiving), y.reader.Ok → y.reader.stream.ending ≠ .idle →
      y.phase = .done → (after m y).phase = .done := by
    intro m
    induction m with
    | zero => intro y _ _ h; exact h
    | succ m ih =>
      intro y h1 h2 h3
      obtain ⟨g1, g2, _, g4⟩ := step_left h1 h2
      exact ih _ g1 g2 (g4 h3)
  generalize hl : left y = l
  induction l using Nat.strongRecOn generalizing y with
  | _ l ih =>
    obtain ⟨g1, g2, g3, g4⟩ := step_left hok' he'
    by_cases hdone : y.phase = .done
    · exact ⟨0, fun m _ => stay m y hok' he' hdone⟩
    · rcases g3 with h | h
      · exact absurd h hdone
      · obtain ⟨n, hn⟩ := ih _ (by rw [← hl]; exact h) g1 g2 rfl
        refine ⟨n + 1, fun m hm => ?_⟩
        cases m with
        | zero => omega
        | succ m => exact hn m (by omega)

/-- C45: a finished group is served to its end.  If the group and all its frames are finished and
the sizes can be encoded, then, wherever the publisher is, asking for frames and reading them brings
it to the end of the group, and it finishes the stream. -/
theorem c45_served {c subscribe sequence : Nat} {tr : Trace} {s : Group.State} {x : Sending}
    (h : Serve c subscribe sequence tr s x) (hn : NoClones tr) (hx : x.phase ≠ .done)
    (hc : closing tr = some (.ok ())) (hf : ∀ k, k < (contents tr).length → Finished tr k)
    (hz : ∀ e ∈ contents tr, e.1 < 2 ^ 62) :
    ∃ tr' s' x', Serve c subscribe sequence (tr ++ tr') s' x' ∧ (∀ e ∈ tr', Own c e.1) ∧
      x'.ending = .fin ∧ contents (tr ++ tr') = contents tr := by
  obtain ⟨header, G, hh, hS⟩ := serve_sent h hn
  have hcl : s.closed = some (.ok ()) := by
    rw [← (Model.Group.inv_reach h.reach).agrees.closed]; exact hc
  have hcon := contents_reach h.reach
  have hall : ∀ f ∈ s.list, ∃ (size : Nat) (fs : Model.Frame.State),
      s.frames[f]? = some (size, fs) ∧ fs.closed = some (.ok ()) ∧
      ∃ header, wire (encodeFrame ⟨size⟩) = .ok header := by
    intro f hm
    obtain ⟨k, hk⟩ := List.getElem?_of_mem hm
    have hlt := (List.getElem?_eq_some_iff.1 hk).1
    obtain ⟨f', size, fs, g1, g2, g3⟩ := (finished_reach h.reach k).1
      (hf k (by rw [hcon, List.length_map]; exact hlt))
    rw [hk] at g1
    cases g1
    refine ⟨size, fs, g2, g3, (Props.Message.encodes_u64 size).2 ?_⟩
    have := hz (frameAt s f) (by rw [hcon]; exact List.mem_map_of_mem hm)
    unfold frameAt at this
    rw [g2] at this
    exact this
  have keep : ∀ {tr' : Trace} {s' : Group.State} {x' : Sending},
      Serve c subscribe sequence (tr ++ tr') s' x' → Same s s' →
      contents (tr ++ tr') = contents tr := by
    intro tr' s' x' h' hs
    rw [contents_reach h'.reach, hcon, hs.list]
    refine List.map_congr_left fun f hm => ?_
    obtain ⟨size, fs, g1, _⟩ := hall f hm
    obtain ⟨fs', k1, _, k3⟩ := hs.frames f size fs g1
    unfold frameAt
    rw [g1, k1]
    simp only [k3]
  have hnext := (hS.idle hx).2
  cases hp : x.phase with
  | done => exact absurd hp hx
  | frames =>
    obtain ⟨tr', s', x', h1, h2, h3, h4⟩ := serve_end _ h hp hnext hcl hall rfl
    exact ⟨tr', s', x', h1, h2, h3, keep h1 h4⟩
  | payload f id =>
    obtain ⟨G', size, i, fs, _, g2, g3, g4, _⟩ := hS.payload f id hp
    obtain ⟨size', fs', a1, a2, _⟩ := hall f (List.mem_of_getElem? g2)
    rw [g3] at a1
    cases a1
    obtain ⟨tr', s', x', h1, h2, h3, h4, h5⟩ := serve_payload _ h hp g3 a2 g4 rfl
    have hnext' : Next s' c G.length := by
      unfold Next
      rw [h5, h4.list]
      exact hnext
    obtain ⟨tr'', s'', x'', m1, m2, m3, m4⟩ := serve_end _ h1 h3 hnext'
      (by rw [h4.closed]; exact hcl)
      (by
        intro g hg
        rw [h4.list] at hg
        obtain ⟨size', fs', b1, b2, b3⟩ := hall g hg
        obtain ⟨fs'', d1, d2, _⟩ := h4.frames g size' fs' b1
        exact ⟨size', fs'', d1, d2.trans b2, b3⟩) rfl
    rw [List.append_assoc] at m1
    refine ⟨tr' ++ tr'', s'', x'', m1, ?_, m3, keep m1 (h4.trans m4)⟩
    intro e he
    rcases List.mem_append.1 he with he | he
    · exact h2 e he
    · exact m2 e he

/-! ## C47 -/

/-- C47: whatever bytes a possibly hostile peer sends and however the consumers behave, the frames
of the group are exactly what reading the stream gives: the header with the size, then the payload,
then the next header.  No frame has more bytes than its size, and a finished frame has exactly as
many. -/
theorem c47_reads {r₀ : Reader} (hok : r₀.Ok) {d : Bool} {tr' : Trace} {s' : Group.State}
    {y : Receiving} (hr : Recv r₀ d tr' s' y) :
    Reads r₀.content (contents tr') y.reader.content ∧
    (∀ e ∈ contents tr', e.2.length ≤ e.1) ∧
    ∀ (k size : Nat) (q : Bytes), (contents tr')[k]? = some (size, q) → Finished tr' k →
      q.length = size := by
  obtain ⟨F, hF⟩ := recv_got hok hr
  rw [hF.contents hr.reach]
  refine ⟨hF.reads, reads_le hF.reads, ?_⟩
  intro k size q hk hf
  obtain ⟨size2, p2, hk2, hl⟩ := hF.finished hr.reach hf
  have he := Option.some.inj (hk.symm.trans hk2)
  cases he
  exact hl

/-- C47: if the stream is finished inside a payload, the group is aborted with `WrongSize`. -/
theorem c47_wrong_size {r₀ : Reader} (hok : r₀.Ok) (he : r₀.stream.ending = .fin)
    {tr' : Trace} {s' : Group.State} {y : Receiving} (hr : Recv r₀ false tr' s' y)
    (hy : y.phase = .done) {frames : List (Nat × Bytes)} {size : Nat} {p : Bytes}
    (hc : contents tr' = frames ++ [(size, p)]) (hlt : p.length < size) :
    closing tr' = some (.error .wrongSize) := by
  obtain ⟨F, hF⟩ := recv_got hok hr
  rw [hF.contents hr.reach] at hc
  have hp := hF.phase
  unfold PhaseOk at hp
  rw [hy] at hp
  obtain ⟨v, h1, h2, h3⟩ := hp
  rw [(Model.Group.inv_reach hr.reach).agrees.closed, h1]
  cases v with
  | ok u =>
    exfalso
    obtain ⟨fs, g1, g2, g3, _⟩ := hF.frames frames.length size p (by rw [hc]; simp)
    have := g3 ((h2 rfl).1 _ _ _ g1)
    omega
  | error e =>
    rcases h3 e rfl with hx | ⟨e', rfl, hw⟩
    · cases hx
    · rcases hw with ⟨t, ht, _⟩ | ⟨_, hall, _⟩ | ⟨_, _, _, rfl⟩
      · rw [he] at ht; cases ht
      · have := hall (size, p) (by rw [hc]; simp)
        simp only at this
        omega
      · rfl

/-- C47: the error a group is aborted with tells what was wrong with the stream: `Cancel` if the
stream failed (the error of the transport is not passed on), the error of the decoder if what
follows the last complete frame is no header, and `WrongSize` if the stream was finished inside a
payload. -/
theorem c47_error {r₀ : Reader} (hok : r₀.Ok) {tr' : Trace} {s' : Group.State} {y : Receiving}
    (hr : Recv r₀ false tr' s' y) (hy : y.phase = .done) {e : Error}
    (hc : closing tr' = some (.error e)) :
    ((∃ t, r₀.stream.ending = .failed t) ∧ e = .cancel) ∨
    ((∀ f ∈ contents tr', f.2.length = f.1) ∧
      ∃ de, decodeFrame y.reader.content = .error de ∧ (de = .short → r₀.stream.ending = .fin) ∧
        e = .decode de) ∨
    (r₀.stream.ending = .fin ∧ y.reader.content = [] ∧
      (∃ frames size p, contents tr' = frames ++ [(size, p)] ∧ p.length < size) ∧
      e = .wrongSize) := by
  obtain ⟨F, hF⟩ := recv_got hok hr
  rw [hF.contents hr.reach]
  have hp := hF.phase
  unfold PhaseOk at hp
  rw [hy] at hp
  obtain ⟨v, h1, _, h3⟩ := hp
  rw [(Model.Group.inv_reach hr.reach).agrees.closed, h1] at hc
  cases hc
  rcases h3 e rfl with hx | ⟨e', rfl, hw⟩
  · cases hx
  · rcases hw with ⟨t, ht, rfl⟩ | ⟨_, h4, de, h5, h6, rfl⟩ | ⟨h4, h5, h6, rfl⟩
    · exact .inl ⟨⟨t, ht⟩, rfl⟩
    · exact .inr (.inl ⟨h4, de, h5, h6, rfl⟩)
    · exact .inr (.inr ⟨h4, h5, h6, rfl⟩)

/-- C47: none of the calls the receiver makes on the group panics. -/
theorem c47_no_panic {r₀ : Reader} (hok : r₀.Ok) {d : Bool} {tr' : Trace} {s' : Group.State}
    {y : Receiving} (hr : Recv r₀ d tr' s' y) :
    (∀ e ∈ (Group.machine.runFrom s' y.step.1).1,
      e.2 = .ok ∨ (∃ id, e.2 = .handle id) ∨ e.2 = .frame .ok) ∧
    (∀ e ∈ (Group.machine.runFrom s' y.cancel.1).1,
      e.2 = .ok ∨ (∃ id, e.2 = .handle id) ∨ e.2 = .frame .ok) := by
  obtain ⟨F, hF⟩ := recv_got hok hr
  obtain ⟨_, _, h1⟩ := hF.step
  obtain ⟨_, _, h2⟩ := hF.cancel
  exact ⟨h1, h2⟩

/-! ## Examples -/

/-- A group with one frame of three bytes written in two chunks, served to the end. -/
def exampleOps : List Group.Op :=
  [.consume 0, .newFrame 3, .appendFrame 0 0, .frame 0 (.write 0 [1, 2]), .frame 0 (.write 0 [3]),
    .frame 0 (.finish 0), .finish 0]

theorem noClones_of {tr : Trace} (h : (tr.all fun
    | (.frame _ (.cloneProducer _), .frame (.handle _)) => false
    | _ => true) = true) : NoClones tr := by
  intro f p id hx
  have := List.all_eq_true.1 h _ hx
  simp at this

/-- The hypotheses of the theorems about the sender are met: the group is served to its end. -/
theorem example_serve : ∃ tr s x, Serve 0 7 9 tr s x ∧ NoClones tr ∧ x.ending = .fin ∧
    contents tr = [(3, [1, 2, 3])] ∧ x.sent = [0, 7, 9, 3, 1, 2, 3] := by
  have h0 : Serve 0 7 9 (Group.machine.run exampleOps).1 (Group.machine.run exampleOps).2
      ⟨.frames, [0, 7, 9], .idle⟩ :=
    .start (Group.machine.reach_run _) (by
      refine ⟨.inl ⟨0, ?_⟩, ?_⟩
      · exact List.mem_of_getElem? (i := 0) rfl
      · intro hx
        have : (((Group.machine.run exampleOps).1.all fun
          | (.dropConsumer _, _) => false
          | _ => true) = true) := by decide +kernel
        have := List.all_eq_true.1 this _ hx
        simp at this) rfl rfl
  have h1 := Serve.next rfl h0
  have h2 := Serve.read (f := 0) (id := 0) rfl h1
  have h3 := Serve.read (f := 0) (id := 0) rfl h2
  have h4 := Serve.read (f := 0) (id := 0) rfl h3
  have h5 := Serve.next rfl h4
  exact ⟨_, _, _, h5, noClones_of (by decide +kernel), rfl, rfl, rfl⟩

/-- The hypotheses of `c45_served` are met at the start of that service. -/
example : closing (Group.machine.run exampleOps).1 = some (.ok ()) ∧
    contents (Group.machine.run exampleOps).1 = [(3, [1, 2, 3])] ∧
    Finished (Group.machine.run exampleOps).1 0 := ⟨rfl, rfl, 0, rfl, rfl⟩

/-- The receiver, with a consumer, reading what was sent in two pieces. -/
def exampleReader : Reader := ⟨⟨[[3, 1], [2, 3]], .fin⟩, []⟩

example : Accepts ⟨[[0, 7], [9, 3, 1], [2, 3]], .fin⟩ ⟨7, 9⟩ ⟨⟨[[2, 3]], .fin⟩, [3, 1]⟩ :=
  ⟨_, rfl, rfl⟩

example : ∃ tr s x, Recv exampleReader false tr s x ∧ x.phase = .done ∧
    contents tr = [(3, [1, 2, 3])] ∧ closing tr = some (.ok ()) :=
  ⟨_, _, _, .recv (.recv (.user (.nextFrame 0) trivial (.recv (.recv (.recv .start))))), rfl, rfl, rfl⟩

/-- The stream is cut inside the payload. -/
example : ∃ tr s x, Recv ⟨⟨[[3, 1], [2]], .failed (.stream 0)⟩, []⟩ false tr s x ∧ x.phase = .done ∧
    contents tr = [(3, [1, 2])] ∧ closing tr = some (.error .cancel) :=
  ⟨_, _, _, .recv (.recv (.recv (.recv (.recv .start)))), rfl, rfl, rfl⟩

/-- The stream is finished inside the payload. -/
example : ∃ tr s x, Recv ⟨⟨[[3, 1], [2]], .fin⟩, []⟩ false tr s x ∧ x.phase = .done ∧
    contents tr = [(3, [1, 2])] ∧ closing tr = some (.error .wrongSize) :=
  ⟨_, _, _, .recv (.recv (.recv (.recv (.recv .start)))), rfl, rfl, rfl⟩

/-- Too many bytes: what follows the payload is taken as the next header. -/
example : ∃ tr s x, Recv ⟨⟨[[1, 5, 2]], .fin⟩, []⟩ false tr s x ∧
    contents tr = [(1, [5]), (2, [])] :=
  ⟨_, _, _, .recv (.recv (.recv (.recv .start))), rfl⟩

end Verif.Props.Transfer
