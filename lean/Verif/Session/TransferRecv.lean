import Verif.Session.TransferLemmas

/-!
# Lemmas about the receiver of a group
-/

set_option autoImplicit false

namespace Verif.Session.Transfer

open Verif Verif.Coding Verif.Message Verif.Session Verif.Session.Transfer.Spec
open Verif.Model (Group.Op Group.Out Group.State Group.machine Group.init Group.step)
open Verif.Model.Group.Spec (Trace received ConsumerAlive appended frameTrace closing)

theorem run_one (s : Group.State) (op : Group.Op) :
    Group.machine.runFrom s [op] = ([(op, (Group.step s op).1)], (Group.step s op).2) := rfl

theorem run_nil (s : Group.State) {P : Group.Op × Group.Out → Prop} :
    ∀ e ∈ (Group.machine.runFrom s []).1, P e := fun _ he => absurd he List.not_mem_nil

theorem consumer_core (s : Group.State) {op : Group.Op} (h : ByConsumer op) :
    (Group.step s op).2.list = s.list ∧ (Group.step s op).2.closed = s.closed ∧
    (Group.step s op).2.producers = s.producers ∧
    (Group.step s op).2.frames.length = s.frames.length := by
  have gr : ∀ c i g, (Model.Group.giveReader s c i g).2.list = s.list ∧
      (Model.Group.giveReader s c i g).2.closed = s.closed ∧
      (Model.Group.giveReader s c i g).2.producers = s.producers ∧
      (Model.Group.giveReader s c i g).2.frames.length = s.frames.length := by
    intro c i g
    unfold Model.Group.giveReader
    split <;> simp
  have ra : ∀ c i g, (Model.Group.readActive s c i g).2.list = s.list ∧
      (Model.Group.readActive s c i g).2.closed = s.closed ∧
      (Model.Group.readActive s c i g).2.producers = s.producers ∧
      (Model.Group.readActive s c i g).2.frames.length = s.frames.length := by
    intro c i g
    unfold Model.Group.readActive
    repeat' split
    all_goals exact ⟨rfl, rfl, rfl, rfl⟩
  cases op <;> first
    | exact h.elim
    | (simp only [Model.Group.step]
       (repeat' split) <;> first
        | exact ⟨rfl, rfl, rfl, rfl⟩
        | exact gr _ _ _
        | exact ra _ _ _
        | simp)

theorem consumer_frames {op : Group.Op} (h : ByConsumer op) {f size : Nat}
    {fs fs' : Model.Frame.State} (hc : Change op f size fs fs') :
    fs'.chunks = fs.chunks ∧ fs'.closed = fs.closed ∧ fs'.producers = fs.producers := by
  rcases hc with rfl | ⟨_, rfl⟩ | ⟨fop, rfl, rfl⟩
  · exact ⟨rfl, rfl, rfl⟩
  · exact ⟨rfl, rfl, rfl⟩
  · cases fop <;> first
      | exact h.elim
      | (simp only [Model.Frame.step]
         (repeat' split) <;> exact ⟨rfl, rfl, rfl⟩)

/-- Every frame was finished. -/
def AllDone (s : Group.State) : Prop :=
  ∀ (f size : Nat) (fs : Model.Frame.State), s.frames[f]? = some (size, fs) →
    fs.closed = some (.ok ())

/-- Why the transfer failed with error `e`: the stream failed, the header of a frame could not be
decoded, or the stream ended in the middle of a frame. -/
def Why (ending : StreamEnd) (content : Bytes) (F : List (Nat × Bytes)) (e : Error) : Prop :=
  (∃ t, ending = .failed t ∧ e = .webTransport t) ∨
  (content ≠ [] ∧ (∀ g ∈ F, g.2.length = g.1) ∧
    ∃ de, decodeFrame content = .error de ∧ (de = .short → ending = .fin) ∧ e = .decode de) ∨
  (ending = .fin ∧ content = [] ∧ (∃ F' size p, F = F' ++ [(size, p)] ∧ p.length < size) ∧
    e = .wrongSize)

/-- The part of the invariant that depends on the phase. -/
def PhaseOk (ending : StreamEnd) (dropped : Bool) (s : Group.State) (x : Receiving)
    (F : List (Nat × Bytes)) : Prop :=
  match x.phase with
  | .header n => n = F.length ∧ AllDone s ∧ s.closed = none ∧ s.producers.get 0 = some ()
  | .payload n remain => F.length = n + 1 ∧ s.closed = none ∧ s.producers.get 0 = some () ∧
      ∃ (size : Nat) (fs : Model.Frame.State), s.frames[n]? = some (size, fs) ∧
        fs.producers.get 0 = some fs.chunks.flatten.length ∧ fs.closed = none ∧
        fs.chunks.flatten.length + remain = size
  | .failing e => s.closed = none ∧ s.producers.get 0 = some () ∧
      (dropped = true ∨ Why ending x.reader.content F e)
  | .done => ∃ y, s.closed = some y ∧
      (y = .ok () → AllDone s ∧ x.reader.content = [] ∧ ending = .fin) ∧
      (∀ e, y = .error e → dropped = true ∨
        ∃ e', e = abortWith e' ∧ Why ending x.reader.content F e')

/-- The invariant of the receiver: it has received the frames `F`. -/
structure Got (r₀ : Reader) (dropped : Bool) (s : Group.State) (x : Receiving)
    (F : List (Nat × Bytes)) : Prop where
  ok : x.reader.Ok
  ending : x.reader.stream.ending = r₀.stream.ending
  reads : Reads r₀.content F x.reader.content
  list : s.list = List.range F.length
  len : s.frames.length = F.length
  frames : ∀ (k size : Nat) (p : Bytes), F[k]? = some (size, p) → ∃ fs : Model.Frame.State,
    s.frames[k]? = some (size, fs) ∧ fs.chunks.flatten = p ∧
      (fs.closed = some (.ok ()) → p.length = size) ∧
      (k + 1 < F.length → fs.closed = some (.ok ()))
  phase : PhaseOk r₀.stream.ending dropped s x F

theorem reads_extend {b : Bytes} {F' : List (Nat × Bytes)} {size : Nat} {p chunk rest : Bytes}
    (h : Reads b (F' ++ [(size, p)]) (chunk ++ rest)) (hl : (p ++ chunk).length ≤ size) :
    Reads b (F' ++ [(size, p ++ chunk)]) rest := by
  generalize hF : F' ++ [(size, p)] = F at h
  generalize hm : chunk ++ rest = m at h
  cases h with
  | nil => simp at hF
  | @frame frames m' size' payload rest' h1 h2 h3 h4 =>
    obtain ⟨rfl, he⟩ := List.append_inj' hF rfl
    cases he
    subst hm
    exact .frame h1 h2 (by rw [List.append_assoc]; exact h3) hl

theorem reads_le {b : Bytes} {F : List (Nat × Bytes)} {m : Bytes} (h : Reads b F m) :
    ∀ e ∈ F, e.2.length ≤ e.1 := by
  cases h with
  | nil => simp
  | frame h1 h2 h3 h4 =>
    intro e he
    rw [List.mem_append, List.mem_singleton] at he
    rcases he with he | rfl
    · exact Nat.le_of_eq (h2 e he)
    · exact h4

theorem Got.same {r₀ : Reader} {d : Bool} {s s' : Group.State} {x : Receiving}
    {F : List (Nat × Bytes)} (h : Got r₀ d s x F) (hl : s'.list = s.list)
    (hc : s'.closed = s.closed) (hp : s'.producers = s.producers)
    (hn : s'.frames.length = s.frames.length)
    (hf : ∀ (f size : Nat) (fs : Model.Frame.State), s.frames[f]? = some (size, fs) → ∃ fs',
      s'.frames[f]? = some (size, fs') ∧ fs'.chunks = fs.chunks ∧ fs'.closed = fs.closed ∧
      fs'.producers = fs.producers) : Got r₀ d s' x F := by
  have back : ∀ (f size : Nat) (fs' : Model.Frame.State), s'.frames[f]? = some (size, fs') → ∃ fs,
      s.frames[f]? = some (size, fs) ∧ fs'.closed = fs.closed := by
    intro f size fs' hf'
    have hlt := (List.getElem?_eq_some_iff.1 hf').1
    rw [hn] at hlt
    have hg : s.frames[f]? = some (s.frames[f].1, s.frames[f].2) := List.getElem?_eq_getElem hlt
    obtain ⟨fs'', h1, h2, h3, h4⟩ := hf f _ _ hg
    have he := Option.some.inj (hf'.symm.trans h1)
    cases he
    exact ⟨_, hg, h3⟩
  have all : AllDone s → AllDone s' := by
    intro ha f size fs' hf'
    obtain ⟨fs, h1, h2⟩ := back f size fs' hf'
    rw [h2]; exact ha f size fs h1
  refine ⟨h.ok, h.ending, h.reads, by rw [hl]; exact h.list, by rw [hn]; exact h.len, ?_, ?_⟩
  · intro k size p hk
    obtain ⟨fs, h1, h2, h3, h4⟩ := h.frames k size p hk
    obtain ⟨fs', g1, g2, g3, g4⟩ := hf k size fs h1
    exact ⟨fs', g1, by rw [g2]; exact h2, by rw [g3]; exact h3, by rw [g3]; exact h4⟩
  · have := h.phase
    unfold PhaseOk at this ⊢
    rw [hc, hp]
    split
    · rename_i hph
      rw [hph] at this
      exact ⟨this.1, all this.2.1, this.2.2⟩
    · rename_i hph
      rw [hph] at this
      obtain ⟨a1, a2, a3, size, fs, a4, a5, a6, a7⟩ := this
      obtain ⟨fs', g1, g2, g3, g4⟩ := hf _ size fs a4
      exact ⟨a1, a2, a3, size, fs', g1, by rw [g4, g2]; exact a5, by rw [g3]; exact a6,
        by rw [g2]; exact a7⟩
    · rename_i hph
      rw [hph] at this
      exact this
    · rename_i hph
      rw [hph] at this
      obtain ⟨y, b1, b2, b3⟩ := this
      exact ⟨y, b1, fun hy => ⟨all (b2 hy).1, (b2 hy).2⟩, b3⟩

theorem Got.user {r₀ : Reader} {d : Bool} {s : Group.State} {x : Receiving}
    {F : List (Nat × Bytes)} (h : Got r₀ d s x F) {op : Group.Op} (hu : ByConsumer op) :
    Got r₀ d (Group.step s op).2 x F := by
  obtain ⟨h1, h2, h3, h4⟩ := consumer_core s hu
  refine h.same h1 h2 h3 h4 ?_
  intro f size fs hf
  obtain ⟨fs', g1, g2⟩ := frames_step s op hf
  exact ⟨fs', g1, consumer_frames hu g2⟩

/-- What the outcome of decoding an optional frame header means. -/
theorem header_outcome (r : Reader) (hr : r.Ok) :
    (r.decodeMaybe decodeFrame).2.stream.ending = r.stream.ending ∧
    (r.decodeMaybe decodeFrame).2.Ok ∧
    (((r.decodeMaybe decodeFrame).1 = .waiting ∧ r.stream.ending = .idle ∧
        (r.decodeMaybe decodeFrame).2.content = r.content) ∨
     (∃ size, (r.decodeMaybe decodeFrame).1 = .done (.ok (some ⟨size⟩)) ∧
        decodeFrame r.content = .ok (⟨size⟩, (r.decodeMaybe decodeFrame).2.content)) ∨
     ((r.decodeMaybe decodeFrame).1 = .done (.ok none) ∧ r.content = [] ∧ r.stream.ending = .fin ∧
        (r.decodeMaybe decodeFrame).2.content = []) ∨
     (∃ e, (r.decodeMaybe decodeFrame).1 = .done (.error e) ∧
        (r.decodeMaybe decodeFrame).2.content = r.content ∧
        ((∃ t, r.stream.ending = .failed t ∧ e = .webTransport t) ∨
          (r.content ≠ [] ∧ ∃ de, decodeFrame r.content = .error de ∧
            (de = .short → r.stream.ending = .fin) ∧ e = .decode de)))) := by
  obtain ⟨h1, h2, h3, h4⟩ := decodeMaybe_spec good_frame r hr
  refine ⟨h3, h4, ?_⟩
  rw [h1, h2]
  unfold specDecodeMaybe
  by_cases hc : r.content = []
  · rw [if_pos hc]
    cases he : r.stream.ending with
    | fin => exact .inr (.inr (.inl ⟨rfl, hc, rfl, hc⟩))
    | failed t => exact .inr (.inr (.inr ⟨_, rfl, rfl, .inl ⟨t, rfl, rfl⟩⟩))
    | idle => exact .inl ⟨rfl, rfl, rfl⟩
  · rw [if_neg hc]
    unfold specDecode
    cases hd : decodeFrame r.content with
    | ok v =>
      obtain ⟨⟨size⟩, rest⟩ := v
      exact .inr (.inl ⟨size, rfl, rfl⟩)
    | error de =>
      by_cases hs : de = .short
      · subst hs
        cases he : r.stream.ending with
        | fin => exact .inr (.inr (.inr ⟨_, rfl, rfl, .inr ⟨hc, _, rfl, fun _ => rfl, rfl⟩⟩))
        | failed t => exact .inr (.inr (.inr ⟨_, rfl, rfl, .inl ⟨t, rfl, rfl⟩⟩))
        | idle => exact .inl ⟨rfl, rfl, rfl⟩
      · have : ∀ {β : Type} (f g : β), (match (Except.error de : Except DecodeError Unit) with
          | .error .short => f | _ => g) = g := by
          intro β f g
          cases de <;> first | rfl | exact absurd rfl hs
        refine .inr (.inr (.inr ⟨.decode de, ?_, ?_, .inr ⟨hc, de, rfl, fun h => absurd h hs, rfl⟩⟩))
        all_goals (cases de <;> first | rfl | exact absurd rfl hs)

theorem Got.header {r₀ : Reader} {d : Bool} {s : Group.State} {x : Receiving}
    {F : List (Nat × Bytes)} {n : Nat} (h : Got r₀ d s x F) (hx : x.phase = .header n) :
    ∃ F', Got r₀ d (Group.machine.runFrom s x.step.1).2 x.step.2 F' ∧
      ∀ e ∈ (Group.machine.runFrom s x.step.1).1, e.2 = .ok ∨ ∃ id, e.2 = .handle id := by
  have hp := h.phase
  unfold PhaseOk at hp
  rw [hx] at hp
  obtain ⟨rfl, hall, hcl, hpr⟩ := hp
  have comp : ∀ g ∈ F, g.2.length = g.1 := by
    intro g hg
    obtain ⟨k, hk, rfl⟩ := List.getElem_of_mem hg
    obtain ⟨fs, h1, h2, h3, h4⟩ := h.frames k F[k].1 F[k].2 (List.getElem?_eq_getElem hk)
    exact h3 (hall k _ fs h1)
  obtain ⟨o1, o2, o3⟩ := header_outcome x.reader h.ok
  unfold Receiving.step
  rw [hx]
  simp only
  generalize hdm : x.reader.decodeMaybe decodeFrame = dm at o1 o2 o3
  obtain ⟨out, r'⟩ := dm
  simp only at o1 o2 o3 ⊢
  have hend : r'.stream.ending = r₀.stream.ending := o1.trans h.ending
  rcases o3 with ⟨rfl, _, hc⟩ | ⟨size, rfl, hd⟩ | ⟨rfl, hc, hf, hc'⟩ | ⟨e, rfl, hc, hw⟩
  · refine ⟨F, ⟨o2, hend, by rw [hc]; exact h.reads, h.list, h.len, h.frames, ?_⟩, run_nil s⟩
    exact ⟨rfl, hall, hcl, hpr⟩
  · have hrun : Group.machine.runFrom s [.newFrame size, .appendFrame 0 F.length] =
        ([(.newFrame size, .handle s.frames.length), (.appendFrame 0 F.length, .ok)],
          { s with
            frames := s.frames ++ [(size, Model.Frame.init)]
            list := s.list ++ [F.length] }) := by
      simp only [Machine.runFrom, Model.Group.step, hpr]
      have : (s.frames ++ [(size, Model.Frame.init)])[F.length]? = some (size, Model.Frame.init) := by
        rw [← h.len]; simp
      rw [this]
      simp only [hcl]
      simp
    rw [hrun]
    have hlen : (s.frames ++ [(size, Model.Frame.init)])[F.length]? = some (size, Model.Frame.init) := by
      rw [← h.len]; simp
    refine ⟨F ++ [(size, [])], ⟨o2, hend, ?_, ?_, ?_, ?_, ?_⟩, ?_⟩
    · exact .frame h.reads comp (by simpa using hd) (Nat.zero_le _)
    · show s.list ++ [F.length] = _
      rw [h.list, List.length_append, List.length_singleton, List.range_succ]
    · show (s.frames ++ [_]).length = _
      simp [h.len]
    · intro k size' p hk
      by_cases hkl : k < F.length
      · rw [List.getElem?_append_left hkl] at hk
        obtain ⟨fs, h1, h2, h3, h4⟩ := h.frames k size' p hk
        refine ⟨fs, ?_, h2, h3, fun _ => hall k _ fs h1⟩
        show (s.frames ++ [_])[k]? = _
        rw [List.getElem?_append_left (by rw [h.len]; exact hkl)]; exact h1
      · have hk2 := (List.getElem?_eq_some_iff.1 hk).1
        simp only [List.length_append, List.length_singleton] at hk2
        have hkk : k = F.length := by omega
        subst hkk
        simp only [List.getElem?_concat_length] at hk
        cases hk
        refine ⟨Model.Frame.init, hlen, rfl, ?_, ?_⟩
        · intro hx; cases hx
        · intro hx; simp at hx
    · exact ⟨by simp, hcl, hpr, size, Model.Frame.init, hlen, rfl, rfl, by simp [Model.Frame.init]⟩
    · simp
  · have hrun : Group.machine.runFrom s [.finish 0] =
        ([(.finish 0, .ok)], { s with producers := s.producers.put 0 none, closed := some (.ok ()) }) := by
      simp only [Machine.runFrom, Model.Group.step, hpr]
    rw [hrun]
    refine ⟨F, ⟨o2, hend, by rw [hc', ← hc]; exact h.reads, h.list, h.len, h.frames, ?_⟩, by simp⟩
    exact ⟨.ok (), rfl, fun _ => ⟨hall, hc', by rw [← h.ending]; exact hf⟩, fun e he => by cases he⟩
  · refine ⟨F, ⟨o2, hend, by rw [hc]; exact h.reads, h.list, h.len, h.frames, ?_⟩, run_nil s⟩
    refine ⟨hcl, hpr, .inr ?_⟩
    rcases hw with ⟨t, ht, rfl⟩ | ⟨h1, de, h2, h3, rfl⟩
    · exact .inl ⟨t, by rw [← h.ending]; exact ht, rfl⟩
    · refine .inr (.inl ⟨?_, comp, de, ?_, ?_, rfl⟩)
      · show r'.content ≠ []
        rw [hc]; exact h1
      · show decodeFrame r'.content = _
        rw [hc]; exact h2
      · rw [← h.ending]; exact h3

theorem set_core (s : Group.State) {n size : Nat} {fs : Model.Frame.State}
    (hf : s.frames[n]? = some (size, fs)) (fop : Model.Frame.Op) (hq : fop.isPollUnused = false) :
    Group.machine.runFrom s [.frame n fop] =
      ([(.frame n fop, .frame (Model.Frame.step size fs fop).1)],
        { s with frames := s.frames.set n (size, (Model.Frame.step size fs fop).2) }) := by
  simp only [Machine.runFrom, Model.Group.step, hf, hq]
  simp

/-- The last frame changes. -/
theorem Got.last {r₀ : Reader} {d d' : Bool} {s : Group.State} {x x' : Receiving}
    {F : List (Nat × Bytes)} {n size : Nat} {fs fs' : Model.Frame.State} (h : Got r₀ d s x F)
    (hn : F.length = n + 1) (hf : s.frames[n]? = some (size, fs)) {p' : Bytes}
    (hp' : fs'.chunks.flatten = p') (hclosed : fs'.closed = some (.ok ()) → p'.length = size)
    (hok : x'.reader.Ok) (hend : x'.reader.stream.ending = r₀.stream.ending)
    (hreads : Reads r₀.content (F.dropLast ++ [(size, p')]) x'.reader.content)
    (hph : PhaseOk r₀.stream.ending d' { s with frames := s.frames.set n (size, fs') } x'
      (F.dropLast ++ [(size, p')])) :
    Got r₀ d' { s with frames := s.frames.set n (size, fs') } x' (F.dropLast ++ [(size, p')]) := by
  have hlt := (List.getElem?_eq_some_iff.1 hf).1
  have hlen : (F.dropLast ++ [(size, p')]).length = F.length := by simp; omega
  refine ⟨hok, hend, hreads, by rw [hlen]; exact h.list, ?_, ?_, hph⟩
  · rw [hlen]
    show (s.frames.set n _).length = _
    rw [List.length_set]; exact h.len
  · intro k size' p hk
    rw [hlen]
    show ∃ fs, (s.frames.set n (size, fs'))[k]? = _ ∧ _
    by_cases hkl : k < n
    · rw [List.getElem?_append_left (by simp; omega), List.getElem?_dropLast, if_pos (by omega)] at hk
      obtain ⟨fs2, h1, h2, h3, h4⟩ := h.frames k size' p hk
      exact ⟨fs2, by rw [List.getElem?_set_ne (by omega)]; exact h1, h2, h3, h4⟩
    · have hk2 := (List.getElem?_eq_some_iff.1 hk).1
      rw [hlen] at hk2
      have hkk : k = F.dropLast.length := by simp; omega
      subst hkk
      simp only [List.getElem?_concat_length] at hk
      cases hk
      have hd : F.dropLast.length = n := by simp; omega
      rw [hd]
      exact ⟨fs', by simp [hlt], hp', hclosed, fun hx => by omega⟩

theorem Got.payload {r₀ : Reader} {d : Bool} {s : Group.State} {x : Receiving}
    {F : List (Nat × Bytes)} {n remain : Nat} (h : Got r₀ d s x F)
    (hx : x.phase = .payload n remain) :
    ∃ F', Got r₀ d (Group.machine.runFrom s x.step.1).2 x.step.2 F' ∧
      ∀ e ∈ (Group.machine.runFrom s x.step.1).1, e.2 = .frame .ok := by
  have hp := h.phase
  unfold PhaseOk at hp
  rw [hx] at hp
  obtain ⟨hn, hcl, hpr, size, fs, hf, hfp, hfc, hrem⟩ := hp
  have hlt := (List.getElem?_eq_some_iff.1 hf).1
  have hlast : F = F.dropLast ++ [(size, fs.chunks.flatten)] := by
    have hkl : n < F.length := by omega
    obtain ⟨fs2, h1, h2, _⟩ := h.frames n F[n].1 F[n].2 (List.getElem?_eq_getElem hkl)
    have he := Option.some.inj (h1.symm.trans hf)
    have hne : F ≠ [] := by intro hx; rw [hx] at hn; simp at hn
    have hl : F.getLast hne = (size, fs.chunks.flatten) := by
      rw [List.getLast_eq_getElem]
      have : F[F.length - 1]'(by omega) = F[n] := by congr 1; omega
      rw [this]
      injection he with he1 he2
      rw [← he1, ← he2, h2]
    rw [← hl]; exact (List.dropLast_concat_getLast hne).symm
  have hreads := h.reads
  rw [hlast] at hreads
  unfold Receiving.step
  rw [hx]
  cases remain with
  | zero =>
    simp only
    rw [set_core s hf _ rfl]
    have hst : Model.Frame.step size fs (.finish 0) =
        (.ok, { fs with producers := fs.producers.put 0 none, closed := some (.ok ()) }) := by
      simp only [Model.Frame.step, hfp]
      rw [if_pos (by simpa using hrem)]
    rw [hst]
    refine ⟨F.dropLast ++ [(size, fs.chunks.flatten)], ?_, by simp⟩
    refine h.last hn hf rfl (fun _ => by simpa using hrem) h.ok h.ending hreads ?_
    refine ⟨by simp; omega, ?_, hcl, hpr⟩
    intro f size' fs2 hg
    have hg : (s.frames.set n (size, _))[f]? = some (size', fs2) := hg
    rw [List.getElem?_set] at hg
    split at hg
    · cases hg; rfl
    · rename_i hne
      have hfl := (List.getElem?_eq_some_iff.1 hg).1
      rw [h.len] at hfl
      obtain ⟨fs3, g1, g2, g3, g4⟩ := h.frames f F[f].1 F[f].2 (List.getElem?_eq_getElem hfl)
      have he := Option.some.inj (g1.symm.trans hg)
      cases he
      exact g4 (by omega)
  | succ remain =>
    simp only
    obtain ⟨o3, o1, o2⟩ := read_spec (remain + 1) (Nat.succ_pos _) x.reader h.ok
    generalize hdm : x.reader.read (remain + 1) = dm at o1 o2 o3
    obtain ⟨out, r'⟩ := dm
    simp only at o1 o2 o3 ⊢
    have hend : r'.stream.ending = r₀.stream.ending := o1.trans h.ending
    rcases o3 with ⟨data, rfl, hpos, hmax, hcont⟩ | ⟨hempty, hout, hr⟩
    · simp only
      rw [if_pos hmax, set_core s hf _ rfl]
      have hst : Model.Frame.step size fs (.write 0 data) = (.ok,
          { fs with
            producers := fs.producers.put 0 (some (fs.chunks.flatten.length + data.length))
            chunks := fs.chunks ++ [data] }) := by
        simp only [Model.Frame.step, hfp]
        rw [if_neg (by omega), hfc]
        simp
      rw [hst]
      have hlen : ((fs.chunks ++ [data]).flatten).length = fs.chunks.flatten.length + data.length := by
        simp
      refine ⟨F.dropLast ++ [(size, fs.chunks.flatten ++ data)], ?_, by simp⟩
      refine h.last (x' := ⟨r', .payload n (remain + 1 - data.length)⟩) hn hf (by simp) ?_ o2 hend ?_ ?_
      · intro hx; rw [hfc] at hx; cases hx
      · refine reads_extend (by rw [← hcont]; exact hreads) ?_
        rw [List.length_append]; omega
      · refine ⟨by simp; omega, hcl, hpr, size, { fs with
            producers := fs.producers.put 0 (some (fs.chunks.flatten.length + data.length))
            chunks := fs.chunks ++ [data] }, by simp [hlt], ?_, hfc, ?_⟩
        · show (fs.producers.put 0 _).get 0 = some ((fs.chunks ++ [data]).flatten).length
          rw [hlen]; exact Slots.get_put_self _ hfp
        · show ((fs.chunks ++ [data]).flatten).length + _ = _
          rw [hlen]; omega
    · have hr : x.reader = r' := hr.symm
      subst hr
      have fail : ∀ e, Why r₀.stream.ending x.reader.content F e →
          ∃ F', Got r₀ d (Group.machine.runFrom s [.frame n (.abort 0 e)]).2 ⟨x.reader, .failing e⟩ F' ∧
            ∀ g ∈ (Group.machine.runFrom s [.frame n (.abort 0 e)]).1, g.2 = .frame .ok := by
        intro e hw
        rw [set_core s hf _ rfl]
        have hst : Model.Frame.step size fs (.abort 0 e) =
            (.ok, { fs with producers := fs.producers.put 0 none, closed := some (.error e) }) := by
          simp only [Model.Frame.step, hfp]
        rw [hst]
        refine ⟨F.dropLast ++ [(size, fs.chunks.flatten)], ?_, by simp⟩
        refine h.last (x' := ⟨x.reader, .failing e⟩) hn hf rfl (fun hx => by cases hx) h.ok h.ending hreads ?_
        exact ⟨hcl, hpr, .inr (by rw [← hlast]; exact hw)⟩
      rw [h.ending] at hout
      cases he : r₀.stream.ending with
      | fin =>
        rw [he] at hout
        subst hout
        exact fail _ (.inr (.inr ⟨he, hempty, ⟨_, _, _, hlast, by omega⟩, rfl⟩))
      | failed t =>
        rw [he] at hout
        subst hout
        exact fail _ (.inl ⟨t, he, rfl⟩)
      | idle =>
        rw [he] at hout
        subst hout
        refine ⟨F, ⟨h.ok, h.ending, h.reads, h.list, h.len, h.frames, ?_⟩, run_nil s⟩
        exact ⟨hn, hcl, hpr, size, fs, hf, hfp, hfc, hrem⟩

/-- The answers the receiver gets from the group: never a panic. -/
def Fine (o : Group.Out) : Prop := o = .ok ∨ (∃ id, o = .handle id) ∨ o = .frame .ok

theorem Got.step {r₀ : Reader} {d : Bool} {s : Group.State} {x : Receiving}
    {F : List (Nat × Bytes)} (h : Got r₀ d s x F) :
    ∃ F', Got r₀ d (Group.machine.runFrom s x.step.1).2 x.step.2 F' ∧
      ∀ e ∈ (Group.machine.runFrom s x.step.1).1, Fine e.2 := by
  cases hx : x.phase with
  | header n =>
    obtain ⟨F', h1, h2⟩ := h.header hx
    refine ⟨F', h1, fun e he => ?_⟩
    rcases h2 e he with h | h
    · exact .inl h
    · exact .inr (.inl h)
  | payload n remain =>
    obtain ⟨F', h1, h2⟩ := h.payload hx
    exact ⟨F', h1, fun e he => .inr (.inr (h2 e he))⟩
  | failing e =>
    have hp := h.phase
    unfold PhaseOk at hp
    rw [hx] at hp
    obtain ⟨hcl, hpr, hw⟩ := hp
    unfold Receiving.step
    rw [hx]
    simp only
    have hrun : Group.machine.runFrom s [.abort 0 (abortWith e)] =
        ([(.abort 0 (abortWith e), .ok)],
          { s with producers := s.producers.put 0 none, closed := some (.error (abortWith e)) }) := by
      simp only [Machine.runFrom, Model.Group.step, hpr]
    rw [hrun]
    refine ⟨F, ⟨h.ok, h.ending, h.reads, h.list, h.len, h.frames, ?_⟩, by simp [Fine]⟩
    refine ⟨.error (abortWith e), rfl, (fun (hy : Except.error (abortWith e) = Except.ok ()) => by cases hy), ?_⟩
    intro e' he'
    injection he' with he'
    subst he'
    rcases hw with hw | hw
    · exact .inl hw
    · exact .inr ⟨e, rfl, hw⟩
  | done =>
    unfold Receiving.step
    rw [hx]
    exact ⟨F, h, run_nil s⟩

theorem Got.cancel {r₀ : Reader} {d : Bool} {s : Group.State} {x : Receiving}
    {F : List (Nat × Bytes)} (h : Got r₀ d s x F) :
    ∃ F', Got r₀ true (Group.machine.runFrom s x.cancel.1).2 x.cancel.2 F' ∧
      ∀ e ∈ (Group.machine.runFrom s x.cancel.1).1, Fine e.2 := by
  have hp := h.phase
  unfold PhaseOk at hp
  unfold Receiving.cancel
  cases hx : x.phase with
  | header n =>
    rw [hx] at hp
    obtain ⟨_, hall, hcl, hpr⟩ := hp
    exact ⟨F, ⟨h.ok, h.ending, h.reads, h.list, h.len, h.frames, hcl, hpr, .inl rfl⟩,
      run_nil s⟩
  | payload n remain =>
    rw [hx] at hp
    obtain ⟨hn, hcl, hpr, size, fs, hf, hfp, hfc, hrem⟩ := hp
    simp only
    have hst : Model.Frame.step size fs (.dropProducer 0) =
        (.ok, { fs with producers := fs.producers.put 0 none }) := by
      simp only [Model.Frame.step, hfp]
    rw [set_core s hf _ rfl, hst]
    have hkl : n < F.length := by omega
    obtain ⟨fs2, h1, h2, _⟩ := h.frames n F[n].1 F[n].2 (List.getElem?_eq_getElem hkl)
    have he := Option.some.inj (h1.symm.trans hf)
    have hne : F ≠ [] := by intro hx; rw [hx] at hn; simp at hn
    have hl : F.getLast hne = (size, fs.chunks.flatten) := by
      rw [List.getLast_eq_getElem]
      have : F[F.length - 1]'(by omega) = F[n] := by congr 1; omega
      rw [this]
      injection he with he1 he2
      rw [← he1, ← he2, h2]
    have hlast : F = F.dropLast ++ [(size, fs.chunks.flatten)] := by
      rw [← hl]; exact (List.dropLast_concat_getLast hne).symm
    refine ⟨F.dropLast ++ [(size, fs.chunks.flatten)], ?_, by simp [Fine]⟩
    refine h.last (x' := ⟨x.reader, .failing .cancel⟩) hn hf rfl ?_ h.ok h.ending
      (by rw [← hlast]; exact h.reads) ⟨hcl, hpr, .inl rfl⟩
    intro hx; rw [hfc] at hx; cases hx
  | failing e =>
    rw [hx] at hp
    obtain ⟨hcl, hpr, _⟩ := hp
    refine ⟨F, ⟨h.ok, h.ending, h.reads, h.list, h.len, h.frames, ?_⟩, run_nil s⟩
    unfold PhaseOk
    rw [hx]
    exact ⟨hcl, hpr, .inl rfl⟩
  | done =>
    rw [hx] at hp
    obtain ⟨y, h1, h2, _⟩ := hp
    refine ⟨F, ⟨h.ok, h.ending, h.reads, h.list, h.len, h.frames, ?_⟩, run_nil s⟩
    unfold PhaseOk
    rw [hx]
    exact ⟨y, h1, h2, fun _ _ => .inl rfl⟩

theorem Recv.reach {r₀ : Reader} {d : Bool} {tr : Trace} {s : Group.State} {x : Receiving}
    (h : Recv r₀ d tr s x) : Group.machine.Reach tr s := by
  induction h with
  | start => exact Machine.Reach.step (M := Group.machine) (.consume 0) Machine.Reach.init
  | user op _ _ ih => exact Machine.Reach.step (M := Group.machine) op ih
  | recv _ ih => exact Group.machine.reach_runFrom ih _
  | cancel _ ih => exact Group.machine.reach_runFrom ih _

theorem recv_got {r₀ : Reader} (hr : r₀.Ok) {d : Bool} {tr : Trace} {s : Group.State}
    {x : Receiving} (h : Recv r₀ d tr s x) : ∃ F, Got r₀ d s x F := by
  induction h with
  | start =>
    refine ⟨[], hr, rfl, .nil, rfl, rfl, ?_, ?_⟩
    · intro k size p hk; simp at hk
    · refine ⟨rfl, ?_, rfl, rfl⟩
      intro f size fs hf
      simp [Model.Group.init, Model.Group.step, Slots.get] at hf
  | user op hu _ ih =>
    obtain ⟨F, hF⟩ := ih
    exact ⟨F, hF.user hu⟩
  | recv _ ih =>
    obtain ⟨F, hF⟩ := ih
    obtain ⟨F', h1, _⟩ := hF.step
    exact ⟨F', h1⟩
  | cancel _ ih =>
    obtain ⟨F, hF⟩ := ih
    obtain ⟨F', h1, _⟩ := hF.cancel
    exact ⟨F', h1⟩

theorem Got.contents {r₀ : Reader} {d : Bool} {tr : Trace} {s : Group.State} {x : Receiving}
    {F : List (Nat × Bytes)} (h : Got r₀ d s x F) (hr : Group.machine.Reach tr s) :
    Spec.contents tr = F := by
  rw [contents_reach hr, h.list]
  apply List.ext_getElem?
  intro k
  rw [List.getElem?_map]
  by_cases hk : k < F.length
  · rw [List.getElem?_range hk, List.getElem?_eq_getElem hk]
    obtain ⟨fs, h1, h2, _⟩ := h.frames k F[k].1 F[k].2 (List.getElem?_eq_getElem hk)
    simp only [Option.map_some, frameAt, h1, h2]
  · rw [List.getElem?_eq_none (by simp; omega), List.getElem?_eq_none (by omega)]
    rfl

theorem Got.finished {r₀ : Reader} {d : Bool} {tr : Trace} {s : Group.State} {x : Receiving}
    {F : List (Nat × Bytes)} (h : Got r₀ d s x F) (hr : Group.machine.Reach tr s) {k : Nat}
    (hf : Finished tr k) : ∃ size p, F[k]? = some (size, p) ∧ p.length = size := by
  obtain ⟨f, size, fs, h1, h2, h3⟩ := (finished_reach hr k).1 hf
  rw [h.list] at h1
  have hk := (List.getElem?_eq_some_iff.1 h1).1
  rw [List.length_range] at hk
  rw [List.getElem?_range hk] at h1
  cases h1
  obtain ⟨fs', g1, g2, g3, _⟩ := h.frames k F[k].1 F[k].2 (List.getElem?_eq_getElem hk)
  have he := Option.some.inj (g1.symm.trans h2)
  cases he
  exact ⟨_, _, List.getElem?_eq_getElem hk, g3 h3⟩

/-! ## Matching what is read with what was sent -/

theorem decode_more {α : Type} {dec : Dec α} (hd : Good dec) {m rest t : Bytes} {a : α}
    (h : dec m = .ok (a, rest)) : dec (m ++ t) = .ok (a, rest ++ t) := by
  obtain ⟨used, rfl, hu⟩ := hd.1 m a rest h
  rw [List.append_assoc]; exact hu _

/-- All frames but the last are complete. -/
def ButLast (G : List (Nat × Bytes)) : Prop :=
  ∀ A e B, G = A ++ e :: B → B ≠ [] → e.2.length = e.1

theorem wire_decode {G : List (Nat × Bytes)} {size : Nat} {d w : Bytes}
    (h : WireOf ((size, d) :: G) w) : ∃ w', WireOf G w' ∧
      decodeFrame w = .ok (⟨size⟩, d ++ w') := by
  obtain ⟨hd, r, h1, h2, rfl⟩ := h
  exact ⟨r, h2, by rw [List.append_assoc]; exact rt_frame _ hd _ h1⟩

theorem decodeFrame_nil : ∀ v, decodeFrame [] ≠ .ok v := by
  intro v hv
  have : decodeFrame [] = .error .short := by decide +kernel
  rw [this] at hv; cases hv

/-- Reading a prefix of the wire form of `G`. -/
theorem reads_match {b m : Bytes} {F : List (Nat × Bytes)} (h : Reads b F m) :
    ∀ (G : List (Nat × Bytes)) (t : Bytes), WireOf G (b ++ t) → ButLast G →
    (∀ e ∈ G, e.2.length ≤ e.1) →
      ((∀ e ∈ F, e.2.length = e.1) → ∃ G', G = F ++ G' ∧ WireOf G' (m ++ t)) ∧
      (∀ F' size p, F = F' ++ [(size, p)] → ∃ d G' w', G = F' ++ (size, d) :: G' ∧ WireOf G' w' ∧
        p ++ (m ++ t) = d ++ w') := by
  induction h with
  | nil =>
    intro G t hG hb hle
    exact ⟨fun _ => ⟨G, rfl, hG⟩, fun F' size p hF => by simp at hF⟩
  | @frame frames m size payload rest h1 h2 h3 h4 ih =>
    intro G t hG hb hle
    obtain ⟨G', rfl, hG'⟩ := (ih G t hG hb hle).1 h2
    have hdec : decodeFrame (m ++ t) = .ok (⟨size⟩, payload ++ rest ++ t) := decode_more good_frame h3
    cases G' with
    | nil =>
      exfalso
      have : m ++ t = [] := hG'
      rw [this] at hdec
      exact decodeFrame_nil _ hdec
    | cons e G' =>
      obtain ⟨size', d⟩ := e
      obtain ⟨w', hw1, hw2⟩ := wire_decode hG'
      have he := Except.ok.inj (hw2.symm.trans hdec)
      injection he with he1 he2
      injection he1 with he1
      subst he1
      have hkey : payload ++ (rest ++ t) = d ++ w' := by rw [he2, List.append_assoc]
      refine ⟨fun hF => ?_, ?_⟩
      · have hpl : payload.length = size' := hF (size', payload) (by simp)
        have hdl : d.length ≤ size' := hle (size', d) (by simp)
        have hdd : d.length = size' := by
          cases G' with
          | nil =>
            have : w' = [] := hw1
            rw [this, List.append_nil] at hkey
            have := congrArg List.length hkey
            rw [List.length_append] at this
            omega
          | cons g G'' => exact hb frames (size', d) (g :: G'') rfl (by simp)
        obtain ⟨rfl, rfl⟩ := List.append_inj hkey (by omega)
        exact ⟨G', by simp, hw1⟩
      · intro F' size p hF
        obtain ⟨rfl, he⟩ := List.append_inj' hF rfl
        cases he
        exact ⟨d, G', w', rfl, hw1, hkey⟩

end Verif.Session.Transfer
