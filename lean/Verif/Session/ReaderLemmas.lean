import Verif.Session.Reader
import Verif.Coding.Codec

/-! # Lemmas about the reader -/

namespace Verif.Session

open Verif Verif.Coding Verif.Message

/-- The bytes not handed out yet: buffered and still to arrive. -/
def Reader.content (r : Reader) : Bytes := r.buffer ++ r.stream.chunks.flatten

/-- The pieces are non-empty. -/
def Reader.Ok (r : Reader) : Prop := ∀ c ∈ r.stream.chunks, c ≠ []

/-- What decoding does, in terms of the bytes and the end of the stream only. -/
def specDecode {α} (d : Dec α) (ending : StreamEnd) (bytes : Bytes) : Outcome α × Bytes :=
  match d bytes with
  | .ok (a, rest) => (.done (.ok a), rest)
  | .error .short =>
    match ending with
    | .fin => (.done (.error (.decode .short)), bytes)
    | .failed e => (.done (.error (.webTransport e)), bytes)
    | .idle => (.waiting, bytes)
  | .error err => (.done (.error (.decode err)), bytes)

theorem decodeLoop_ok {α} {d : Dec α} {ending chunks buffer a rest}
    (h : d buffer = .ok (a, rest)) :
    Reader.decodeLoop d ending chunks buffer =
      (.done (.ok a), ⟨⟨chunks, ending⟩, rest⟩) := by
  rw [Reader.decodeLoop.eq_def]; simp only [h]

theorem decodeLoop_err {α} {d : Dec α} {ending chunks buffer e}
    (h : d buffer = .error e) (he : e ≠ .short) :
    Reader.decodeLoop d ending chunks buffer =
      (.done (.error (.decode e)), ⟨⟨chunks, ending⟩, buffer⟩) := by
  rw [Reader.decodeLoop.eq_def]
  cases e <;> first | exact absurd rfl he | simp only [h]

theorem decodeLoop_short {α} {d : Dec α} {ending c chunks buffer}
    (h : d buffer = .error .short) :
    Reader.decodeLoop d ending (c :: chunks) buffer =
      Reader.decodeLoop d ending chunks (buffer ++ c) := by
  rw [Reader.decodeLoop.eq_def]; simp only [h]

theorem specDecode_err {α} {d : Dec α} {ending bytes e}
    (h : d bytes = .error e) (he : e ≠ .short) :
    specDecode d ending bytes = (.done (.error (.decode e)), bytes) := by
  unfold specDecode
  cases e <;> first | exact absurd rfl he | simp only [h]

theorem decodeLoop_spec {α} {d : Dec α} (hd : Good d) (ending : StreamEnd)
    (chunks : List Bytes) (buffer : Bytes) (hc : ∀ c ∈ chunks, c ≠ []) :
    (Reader.decodeLoop d ending chunks buffer).1 =
      (specDecode d ending (buffer ++ chunks.flatten)).1 ∧
    (Reader.decodeLoop d ending chunks buffer).2.content =
      (specDecode d ending (buffer ++ chunks.flatten)).2 ∧
    (Reader.decodeLoop d ending chunks buffer).2.stream.ending = ending ∧
    (Reader.decodeLoop d ending chunks buffer).2.Ok := by
  have st := stable_of hd.1 hd.2
  induction chunks generalizing buffer with
  | nil =>
    cases h : d buffer with
    | ok p =>
      rw [decodeLoop_ok h]
      simp [specDecode, h, Reader.content, Reader.Ok]
    | error e =>
      by_cases he : e = .short
      · subst he
        rw [Reader.decodeLoop.eq_def]
        cases ending <;> simp [specDecode, h, Reader.content, Reader.Ok]
      · rw [decodeLoop_err h he, List.flatten_nil, List.append_nil, specDecode_err h he]
        simp [Reader.content, Reader.Ok]
  | cons c cs ih =>
    cases h : d buffer with
    | ok p =>
      obtain ⟨a, rest⟩ := p
      have h2 := st.1 _ _ _ h ((c :: cs).flatten)
      rw [decodeLoop_ok h]
      simp only [specDecode, h2]
      exact ⟨trivial, rfl, trivial, hc⟩
    | error e =>
      by_cases he : e = .short
      · subst he
        have := ih (buffer ++ c) (fun x hx => hc x (by simp [hx]))
        rw [decodeLoop_short h, List.flatten_cons, ← List.append_assoc]
        exact this
      · have h2 := st.2 _ _ h he ((c :: cs).flatten)
        rw [decodeLoop_err h he, specDecode_err h2 he]
        exact ⟨rfl, rfl, rfl, hc⟩

theorem decode_spec {α} {d : Dec α} (hd : Good d) (r : Reader) (hr : r.Ok) :
    (r.decode d).1 = (specDecode d r.stream.ending r.content).1 ∧
    (r.decode d).2.content = (specDecode d r.stream.ending r.content).2 ∧
    (r.decode d).2.stream.ending = r.stream.ending ∧ (r.decode d).2.Ok :=
  decodeLoop_spec hd r.stream.ending r.stream.chunks r.buffer hr

/-- What waiting for the end does, in terms of the bytes and the end of the stream. -/
def specFinished (ending : StreamEnd) (bytes : Bytes) : Outcome Unit :=
  if bytes = [] then
    match ending with
    | .fin => .done (.ok ())
    | .failed e => .done (.error (.webTransport e))
    | .idle => .waiting
  else .done (.error (.decode .expectedEnd))

theorem finished_spec (r : Reader) (hr : r.Ok) :
    r.finished.1 = specFinished r.stream.ending r.content ∧
    r.finished.2.content = r.content ∧
    r.finished.2.stream.ending = r.stream.ending ∧ r.finished.2.Ok := by
  obtain ⟨⟨chunks, ending⟩, buffer⟩ := r
  unfold Reader.finished
  cases buffer with
  | cons b bs =>
    rw [if_neg (by simp)]
    simp only [specFinished, Reader.content, List.cons_append, reduceCtorEq, if_false, true_and]
    exact hr
  | nil =>
    rw [if_pos rfl]
    cases chunks with
    | nil =>
      cases ending <;>
        simp [specFinished, Reader.content, Reader.Ok]
    | cons c cs =>
      have hc : c ≠ [] := hr c (by simp)
      simp [specFinished, Reader.content, hc]
      intro x hx
      exact hr x (by simp [hx])

/-- What decoding an optional message does. -/
def specDecodeMaybe {α} (d : Dec α) (ending : StreamEnd) (bytes : Bytes) :
    Outcome (Option α) × Bytes :=
  if bytes = [] then
    match ending with
    | .fin => (.done (.ok none), bytes)
    | .failed e => (.done (.error (.webTransport e)), bytes)
    | .idle => (.waiting, bytes)
  else
    match specDecode d ending bytes with
    | (.done (.ok a), rest) => (.done (.ok (some a)), rest)
    | (.done (.error e), rest) => (.done (.error e), rest)
    | (.waiting, rest) => (.waiting, rest)

theorem decodeMaybe_spec {α} {d : Dec α} (hd : Good d) (r : Reader) (hr : r.Ok) :
    (r.decodeMaybe d).1 = (specDecodeMaybe d r.stream.ending r.content).1 ∧
    (r.decodeMaybe d).2.content = (specDecodeMaybe d r.stream.ending r.content).2 ∧
    (r.decodeMaybe d).2.stream.ending = r.stream.ending ∧ (r.decodeMaybe d).2.Ok := by
  obtain ⟨f1, f2, f3, f4⟩ := finished_spec r hr
  unfold Reader.decodeMaybe specDecodeMaybe
  generalize hfin : r.finished = fin at f1 f2 f3 f4
  obtain ⟨o, r'⟩ := fin
  simp only at f1 f2 f3 f4
  by_cases hb : r.content = []
  · rw [if_pos hb]
    unfold specFinished at f1
    rw [if_pos hb] at f1
    cases he : r.stream.ending <;> rw [he] at f1 <;> subst f1 <;>
      simp [f2, f3, f4, he]
  · rw [if_neg hb]
    unfold specFinished at f1
    rw [if_neg hb] at f1
    subst f1
    obtain ⟨g1, g2, g3, g4⟩ := decode_spec hd r' f4
    rw [f3, f2] at g1 g2
    generalize hdec : r'.decode d = dec at g1 g2 g3 g4
    obtain ⟨o2, r2⟩ := dec
    simp only at g1 g2 g3 g4
    simp only [hdec]
    generalize specDecode d r.stream.ending r.content = sp at g1 g2
    obtain ⟨o3, rest⟩ := sp
    simp only at g1 g2
    subst g1
    cases o2 with
    | waiting => simp [g2, g3, g4, f3]
    | done x => cases x <;> simp [g2, g3, g4, f3]

theorem read_spec (max : Nat) (hm : 0 < max) (r : Reader) (hr : r.Ok) :
    ((∃ data, (r.read max).1 = .done (.ok (some data)) ∧ 0 < data.length ∧ data.length ≤ max ∧
        r.content = data ++ (r.read max).2.content) ∨
     (r.content = [] ∧ (r.read max).1 = r.stream.ending.result ∧ (r.read max).2 = r)) ∧
    (r.read max).2.stream.ending = r.stream.ending ∧ (r.read max).2.Ok := by
  obtain ⟨⟨chunks, ending⟩, buffer⟩ := r
  unfold Reader.read
  cases buffer with
  | cons b bs =>
    rw [if_neg (by simp)]
    refine ⟨.inl ⟨_, rfl, ?_, ?_, ?_⟩, rfl, hr⟩
    · simp only [List.length_take, List.length_cons]; omega
    · simp only [List.length_take, List.length_cons]; omega
    · simp only [Reader.content]
      rw [← List.append_assoc, List.take_append_drop]
  | nil =>
    rw [if_pos rfl]
    cases chunks with
    | nil => exact ⟨.inr ⟨rfl, rfl, rfl⟩, rfl, hr⟩
    | cons c cs =>
      have hc : c ≠ [] := hr c (by simp)
      have hpos : 0 < c.length := List.length_pos_iff.2 hc
      simp only
      by_cases hl : c.length ≤ max
      · rw [if_pos hl]
        refine ⟨.inl ⟨c, rfl, hpos, hl, by simp [Reader.content]⟩, rfl, ?_⟩
        intro x hx
        exact hr x (List.mem_cons_of_mem _ hx)
      · rw [if_neg hl]
        refine ⟨.inl ⟨_, rfl, ?_, ?_, ?_⟩, rfl, ?_⟩
        · rw [List.length_take]; omega
        · rw [List.length_take]; omega
        · simp only [Reader.content, List.nil_append, List.flatten_cons]
          rw [← List.append_assoc, List.take_append_drop]
        · intro x hx
          rcases List.mem_cons.1 hx with rfl | hx
          · intro h0
            have := congrArg List.length h0
            simp at this; omega
          · exact hr x (List.mem_cons_of_mem _ hx)

end Verif.Session
