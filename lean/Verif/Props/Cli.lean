import Verif.Hang.Cli
import Verif.Props.Import

/-!
# C127, C128: the program `hang`

What has been read from the input, and the connections, are taken from the history.
-/

set_option autoImplicit false

namespace Verif.Props.Cli

open Verif Verif.Hang.Import Verif.Hang.Cli

variable {Atom Err σ : Type}

/-! ## Specification: the input -/

/-- What has been read. -/
structure Fed (σ : Type) where
  ftyp : Bool
  /-- what the header was imported as -/
  moov : Option σ
  data : List Bytes

def Fed.add (f : Fed σ) : Event σ → Fed σ
  | .ftyp _ => { f with ftyp := true }
  | .moov r => { f with moov := r }
  | .data d => { f with data := f.data ++ [d] }
  | _ => f

inductive Answer where
  | invalid
  | goes
  | ends (ok : Bool)
  deriving DecidableEq

/-- The stream is complete: no error, and nothing left at the end. -/
def complete (P : Params Atom Err σ) (s : σ) (ds : List Bytes) : Bool :=
  match (readFrom P ([], s) ds).1 with
  | some none => true
  | _ => false

/-- What comes of an event of the input: first `ftyp`, then `moov`, then media for the importer, until there is an error or the end. -/
def answer (P : Params Atom Err σ) (f : Fed σ) (e : Event σ) : Answer :=
  match e with
  | .broken => .ends false
  | .ftyp ok => if f.ftyp then .invalid else if ok then .goes else .ends false
  | .moov r => if f.ftyp && f.moov.isNone then (if r.isSome then .goes else .ends false) else .invalid
  | .data d =>
    match f.moov with
    | none => .invalid
    | some s => if d = [] then .invalid else if (feed P ([], s) (f.data ++ [d])).1.isNone then .goes else .ends false
  | .eof =>
    match f.moov with
    | none => .ends false
    | some s => .ends (complete P s f.data)

/-- What the importer has made of the input. -/
def made (P : Params Atom Err σ) (f : Fed σ) : Option σ := f.moov.map fun s => (feed P ([], s) f.data).2.2

/-! ## The invariant for the input -/

inductive At (P : Params Atom Err σ) : Fed σ → Stage σ → Prop
  | ftyp : At P ⟨false, none, []⟩ .ftyp
  | moov : At P ⟨true, none, []⟩ .moov
  | media (s : σ) (ds : List Bytes) (b : Bytes) (i : σ) (h : feed P ([], s) ds = (none, b, i)) :
    At P ⟨true, some s, ds⟩ (.media b i)

theorem feed_snoc (P : Params Atom Err σ) (ds : List Bytes) (d : Bytes) (x y : Bytes × σ) (h : feed P x ds = (none, y)) :
    feed P x (ds ++ [d]) = parse P y d := by
  induction ds generalizing x with
  | nil =>
    simp only [feed, Prod.mk.injEq, true_and] at h
    subst h
    simp only [List.nil_append, feed]
    split <;> simp_all
  | cons e ds ih =>
    simp only [feed] at h
    simp only [List.cons_append, feed]
    split at h
    · cases h
    · exact ih _ h

theorem at_made {P : Params Atom Err σ} {f : Fed σ} {st : Stage σ} (a : At P f st) : st.imported = made P f := by
  cases a with
  | ftyp => rfl
  | moov => rfl
  | media s ds b i h => simp [Stage.imported, made, h]

inductive Agrees (P : Params Atom Err σ) (f : Fed σ) (e : Event σ) : Res σ → Answer → Prop
  | invalid : Agrees P f e .invalid .invalid
  | next (st : Stage σ) (a : At P (f.add e) st) : Agrees P f e (.next st) .goes
  | ended (ok : Bool) : Agrees P f e (.ended ok) (.ends ok)

/-- The stage answers as the specification says, and stays where it should be. -/
theorem at_publish {P : Params Atom Err σ} {f : Fed σ} {st : Stage σ} (a : At P f st) (e : Event σ) :
    Agrees P f e (publish P st e) (answer P f e) := by
  cases a with
  | ftyp =>
    cases e with
    | ftyp ok =>
      cases ok
      · exact .ended false
      · exact .next _ .moov
    | moov r => cases r <;> exact .invalid
    | data d => exact .invalid
    | eof => exact .ended false
    | broken => exact .ended false
  | moov =>
    cases e with
    | ftyp ok => exact .invalid
    | moov r =>
      cases r with
      | none => exact .ended false
      | some s => exact .next _ (.media s [] [] s rfl)
    | data d => exact .invalid
    | eof => exact .ended false
    | broken => exact .ended false
  | media s ds b i h =>
    cases e with
    | ftyp ok => exact .invalid
    | moov r => cases r <;> exact .invalid
    | data d =>
      simp only [publish, answer]
      by_cases hd : d = []
      · rw [if_pos hd, if_pos hd]
        exact .invalid
      · rw [if_neg hd, if_neg hd]
        have hf := feed_snoc P ds d _ _ h
        rcases hp : parseInner P i (b ++ d) with ⟨_ | e, b', i'⟩
        · have hq : parse P (b, i) d = (none, b', i') := by simp only [parse, hp]
          rw [hq] at hf
          rw [hf]
          exact .next _ (.media s _ _ _ hf)
        · have hq : parse P (b, i) d = (some e, [], i') := by simp only [parse, hp]
          rw [hq] at hf
          rw [hf]
          exact .ended false
    | eof =>
      simp only [publish, answer, complete]
      rw [Import.c67_read_feed, h]
      cases b
      · exact .ended true
      · exact .ended false
    | broken => exact .ended false

/-! ## C127: `hang publish` -/

namespace Client

open Verif.Hang.Cli.Client

structure Hist (σ : Type) where
  fed : Fed σ
  /-- connecting succeeded -/
  connected : Bool
  /-- ctrl-c after that -/
  stopped : Bool
  over : Bool

def see (h : Hist σ) (e : Op σ × Out σ) : Hist σ :=
  match e with
  | (_, .exit _ _) => { h with over := true }
  | (.input e, .ok) => { h with fed := h.fed.add e }
  | (.connect _, .ok) => { h with connected := true }
  | (.ctrlC, .ok) => { h with stopped := true }
  | _ => h

def hist (tr : Trace σ) : Hist σ := tr.foldl see ⟨⟨false, none, []⟩, false, false, false⟩

theorem hist_snoc (tr : Trace σ) (e : Op σ × Out σ) : hist (tr ++ [e]) = see (hist tr) e := by simp [hist]

/-- The state of the connection. -/
def FitsConn (connected stopped : Bool) : Conn → Prop
  | .connecting => connected = false ∧ stopped = false
  | .open => connected = true ∧ stopped = false
  | .closing => connected = true ∧ stopped = true

structure Inv (P : Params Atom Err σ) (tr : Trace σ) (s : State σ) : Prop where
  fed : At P (hist tr).fed s.stage
  conn : FitsConn (hist tr).connected (hist tr).stopped s.conn
  over : (hist tr).over = s.over

theorem inv_step (P : Params Atom Err σ) (tr : Trace σ) (s : State σ) (op : Op σ) (v : Inv P tr s) :
    Inv P (tr ++ [(op, (step P s op).1)]) (step P s op).2 := by
  obtain ⟨h1, h2, h3⟩ := v
  cases op with
  | look => exact ⟨by rw [hist_snoc]; exact h1, by rw [hist_snoc]; exact h2, by rw [hist_snoc]; exact h3⟩
  | input e =>
    simp only [step]
    by_cases ho : s.over = true
    · rw [if_pos ho]
      exact ⟨by rw [hist_snoc]; exact h1, by rw [hist_snoc]; exact h2, by rw [hist_snoc]; exact h3⟩
    · rw [if_neg ho]
      have := at_publish h1 e
      cases hp : publish P s.stage e with
      | invalid => exact ⟨by rw [hist_snoc]; exact h1, by rw [hist_snoc]; exact h2, by rw [hist_snoc]; exact h3⟩
      | ended ok => exact ⟨by rw [hist_snoc]; exact h1, by rw [hist_snoc]; exact h2, by rw [hist_snoc]; rfl⟩
      | next st =>
        rw [hp] at this
        generalize answer P (hist tr).fed e = r at this
        cases this with
        | next _ a => exact ⟨by rw [hist_snoc]; exact a, by rw [hist_snoc]; exact h2, by rw [hist_snoc]; exact h3⟩
  | connect ok =>
    simp only [step]
    split
    · exact ⟨by rw [hist_snoc]; exact h1, by rw [hist_snoc]; exact h2, by rw [hist_snoc]; exact h3⟩
    · rename_i hc
      simp only [Bool.or_eq_true, bne_iff_ne, ne_eq, not_or, Decidable.not_not] at hc
      split
      · rw [hc.2] at h2
        exact ⟨by rw [hist_snoc]; exact h1, by rw [hist_snoc]; exact ⟨rfl, h2.2⟩, by rw [hist_snoc]; exact h3⟩
      · exact ⟨by rw [hist_snoc]; exact h1, by rw [hist_snoc]; exact h2, by rw [hist_snoc]; rfl⟩
  | ctrlC =>
    simp only [step]
    split
    · exact ⟨by rw [hist_snoc]; exact h1, by rw [hist_snoc]; exact h2, by rw [hist_snoc]; exact h3⟩
    · split
      · exact ⟨by rw [hist_snoc]; exact h1, by rw [hist_snoc]; exact h2, by rw [hist_snoc]; rfl⟩
      · rename_i hc
        rw [hc] at h2
        exact ⟨by rw [hist_snoc]; exact h1, by rw [hist_snoc]; exact ⟨h2.1, rfl⟩, by rw [hist_snoc]; exact h3⟩
      · rename_i hc
        rw [hc] at h2
        exact ⟨by rw [hist_snoc]; exact h1, by rw [hist_snoc, hc]; exact ⟨h2.1, rfl⟩, by rw [hist_snoc]; exact h3⟩
  | closed =>
    simp only [step]
    split
    · exact ⟨by rw [hist_snoc]; exact h1, by rw [hist_snoc]; exact h2, by rw [hist_snoc]; exact h3⟩
    · exact ⟨by rw [hist_snoc]; exact h1, by rw [hist_snoc]; exact h2, by rw [hist_snoc]; rfl⟩
  | elapsed =>
    simp only [step]
    split
    · exact ⟨by rw [hist_snoc]; exact h1, by rw [hist_snoc]; exact h2, by rw [hist_snoc]; exact h3⟩
    · exact ⟨by rw [hist_snoc]; exact h1, by rw [hist_snoc]; exact h2, by rw [hist_snoc]; rfl⟩

variable {P : Params Atom Err σ} {tr : Trace σ} {s : State σ}

theorem inv_reach (h : (machine P).Reach tr s) : Inv P tr s :=
  Machine.Reach.induct (M := machine P) (P := fun tr s => Inv P tr s)
    ⟨.ftyp, ⟨rfl, rfl⟩, rfl⟩ (fun tr s op _ v => inv_step P tr s op v) h

theorem conn_eq (h : Inv P tr s) : (s.conn = .connecting ↔ (hist tr).connected = false) ∧
    (s.conn = .open ↔ (hist tr).connected = true ∧ (hist tr).stopped = false) ∧ (s.conn = .closing ↔ (hist tr).stopped = true) := by
  have := h.conn
  cases hc : s.conn <;> rw [hc] at this <;> obtain ⟨a, b⟩ := this <;> simp [a, b]

/-- The relay sees what the importer has made of the input so far, from connecting to ctrl-c or the end of the process. -/
theorem c127_shown (h : (machine P).Reach tr s) :
    (step P s .look).1 =
      .shown (if (hist tr).connected && !(hist tr).stopped && !(hist tr).over then some (made P (hist tr).fed) else none) := by
  have v := inv_reach h
  obtain ⟨h1, h2, h3⟩ := v
  rw [h3, ← at_made h1]
  simp only [step]
  cases hc : s.conn <;> rw [hc] at h2 <;> obtain ⟨a, b⟩ := h2 <;> rw [a, b] <;> cases s.over <;> rfl

/-- The input is processed whether there is a connection or not; the process ends with it. -/
theorem c127_input (h : (machine P).Reach tr s) (e : Event σ) :
    (step P s (.input e)).1 =
      if (hist tr).over then .invalid
      else
        match answer P (hist tr).fed e with
        | .invalid => .invalid
        | .goes => .ok
        | .ends ok => .exit (if ok then .ok else .err) (hist tr).stopped := by
  have v := inv_reach h
  have hc := (conn_eq v).2.2
  obtain ⟨h1, h2, h3⟩ := v
  rw [h3]
  simp only [step]
  by_cases ho : s.over = true
  · rw [if_pos ho, if_pos ho]
  · rw [if_neg ho, if_neg ho]
    have := at_publish h1 e
    generalize publish P s.stage e = q at this
    generalize answer P (hist tr).fed e = r at this
    cases this with
    | invalid => rfl
    | next _ a => rfl
    | ended ok =>
      simp only [exit, result]
      congr 1
      cases hs : (hist tr).stopped
      · rw [hs] at hc
        simpa using hc
      · simpa using hc.2 hs

/-- Connecting, ctrl-c, the end of the session, and the end of the time for closing. -/
theorem c127_connection (h : (machine P).Reach tr s) :
    (∀ ok, (step P s (.connect ok)).1 =
      if (hist tr).over || (hist tr).connected then .invalid else if ok then .ok else .exit .err false) ∧
    (step P s .ctrlC).1 = (if (hist tr).over then .invalid else if (hist tr).connected then .ok else .exit .killed false) ∧
    (step P s .closed).1 =
      (if (hist tr).over || !(hist tr).connected || (hist tr).stopped then .invalid else .exit .err false) ∧
    (step P s .elapsed).1 = (if (hist tr).over || !(hist tr).stopped then .invalid else .exit .ok true) := by
  obtain ⟨h1, h2, h3⟩ := inv_reach h
  rw [h3]
  simp only [step]
  cases hc : s.conn <;> rw [hc] at h2 <;> obtain ⟨a, b⟩ := h2 <;> rw [a, b] <;> cases s.over <;>
    refine ⟨fun ok => ?_, ?_, ?_, ?_⟩ <;> (try cases ok) <;> simp [exit, hc]

/-- Wherever the input is cut, the process ends the same way; for a decoder that does not change its mind when more bytes follow. -/
theorem c127_cuts_partial (hP : Stable P.decode) (x : σ) (ds es : List Bytes) (hd : ds ≠ []) (he : es ≠ [])
    (heq : ds.flatten = es.flatten) :
    complete P x ds = complete P x es ∧ made P ⟨true, some x, ds⟩ = made P ⟨true, some x, es⟩ := by
  constructor
  · rw [complete, complete, Import.c67_read_partial P hP x ds es hd he heq]
  · simp only [made, Option.map_some, Import.c67_cuts_partial P hP ([], x) ds es hd he heq]

/-- After the end of the process nothing happens. -/
theorem c127_over (h : (machine P).Reach tr s) (ho : (hist tr).over = true) (op : Op σ) :
    (step P s op).2 = s ∧ ((step P s op).1 = .invalid ∨ (step P s op).1 = .shown none) := by
  have hs : s.over = true := by rw [← (inv_reach h).over]; exact ho
  cases op <;> simp [step, hs]

/-- The process closes the session exactly when ctrl-c ends it. -/
theorem c127_graceful (h : (machine P).Reach tr s) (op : Op σ) (x : Exit) (g : Bool) (ho : (step P s op).1 = .exit x g) :
    g = (hist tr).stopped := by
  have hc := (conn_eq (inv_reach h)).2.2
  have key : ∀ e, (exit s e).1 = .exit x g → g = (hist tr).stopped := by
    intro e he
    simp only [exit, Out.exit.injEq] at he
    rw [← he.2]
    cases hs : (hist tr).stopped
    · rw [hs] at hc
      simpa using hc
    · simpa using hc.2 hs
  cases op <;> simp only [step] at ho <;> repeat' split at ho
  all_goals first | (cases ho; done) | exact key _ ho

abbrev sample := machine Import.sized

/-- A stream that is read while connecting, and a box cut in the middle. -/
example : ∃ (tr : Trace (List Bytes)) (s : State (List Bytes)), sample.Reach tr s ∧ (hist tr).over = false ∧
    (step Import.sized s .look).1 = .shown (some (some [[1], [3, 7, 8]])) :=
  ⟨_, _, sample.reach_run [.input (.ftyp true), .input (.moov (some [[1]])), .input (.data [3, 7]), .connect true,
    .input (.data [8, 2])], by decide +kernel, by decide +kernel⟩

/-- If the input ends before the connection is there, the program reports success though nothing was ever published. -/
theorem c127_lost : ∃ (tr : Trace (List Bytes)) (s : State (List Bytes)), sample.Reach tr s ∧
    tr.getLast? = some (.input .eof, .exit .ok false) ∧ (hist tr).connected = false ∧ (hist tr).fed.data = [[2, 9]] :=
  ⟨_, _, sample.reach_run [.input (.ftyp true), .input (.moov (some [])), .input (.data [2, 9]), .input .eof],
    by decide +kernel, by decide +kernel, by decide +kernel⟩

/-- At the end of the input the program ends at once, without closing the session. -/
theorem c127_abrupt : ∃ (tr : Trace (List Bytes)) (s : State (List Bytes)), sample.Reach tr s ∧
    tr.getLast? = some (.input .eof, .exit .ok false) ∧ (hist tr).connected = true ∧ (hist tr).fed.data = [[2, 9]] :=
  ⟨_, _, sample.reach_run [.input (.ftyp true), .input (.moov (some [])), .connect true, .input (.data [2, 9]), .input .eof],
    by decide +kernel, by decide +kernel, by decide +kernel⟩

end Client

/-! ## C128: `hang serve` -/

namespace Server

open Verif.Hang.Cli.Server

/-- What the history says of a connection. -/
structure Seen where
  accepted : Bool
  gone : Bool
  deriving DecidableEq

structure Hist (σ : Type) where
  fed : Fed σ
  conns : List Seen
  over : Bool

def see (h : Hist σ) (e : Op σ × Out σ) : Hist σ :=
  match e with
  | (_, .exit _) => { h with over := true }
  | (.input e, .ok) => { h with fed := h.fed.add e }
  | (.incoming _, .conn _) => { h with conns := h.conns ++ [⟨false, false⟩] }
  | (.accept n _, .ok) => { h with conns := h.conns.modify n fun x => { x with accepted := true } }
  | (.accept n _, .panicked) => { h with conns := h.conns.modify n fun x => { x with gone := true } }
  | (.closed n, .ok) => { h with conns := h.conns.modify n fun x => { x with gone := true } }
  | _ => h

def hist (tr : Trace σ) : Hist σ := tr.foldl see ⟨⟨false, none, []⟩, [], false⟩

theorem hist_snoc (tr : Trace σ) (e : Op σ × Out σ) : hist (tr ++ [e]) = see (hist tr) e := by simp [hist]

def stateOf (x : Seen) : Conn := if x.gone then .gone else if x.accepted then .open else .waiting

structure Inv (P : Params Atom Err σ) (tr : Trace σ) (s : State σ) : Prop where
  fed : At P (hist tr).fed s.stage
  conns : (hist tr).conns.map stateOf = s.conns
  over : (hist tr).over = s.over

theorem map_modify {l : List Seen} {n : Nat} {f : Seen → Seen} {c : Conn} (h : ∀ x, l[n]? = some x → stateOf (f x) = c) :
    (l.modify n f).map stateOf = (l.map stateOf).set n c := by
  apply List.ext_getElem?
  intro i
  simp only [List.getElem?_map, List.getElem?_modify, List.getElem?_set, List.length_map]
  by_cases hi : n = i
  · subst hi
    simp only [if_true]
    cases hx : l[n]? with
    | none =>
      have : ¬ n < l.length := by simpa using hx
      simp [this]
    | some x =>
      have : n < l.length := (List.getElem?_eq_some_iff.1 hx).1
      simp [this, h x hx]
  · simp only [if_neg hi]
    cases l[i]? <;> rfl

theorem inv_step (P : Params Atom Err σ) (tr : Trace σ) (s : State σ) (op : Op σ) (v : Inv P tr s) :
    Inv P (tr ++ [(op, (step P s op).1)]) (step P s op).2 := by
  obtain ⟨h1, h2, h3⟩ := v
  cases op with
  | look n => exact ⟨by rw [hist_snoc]; exact h1, by rw [hist_snoc]; exact h2, by rw [hist_snoc]; exact h3⟩
  | input e =>
    simp only [step]
    by_cases ho : s.over = true
    · rw [if_pos ho]
      exact ⟨by rw [hist_snoc]; exact h1, by rw [hist_snoc]; exact h2, by rw [hist_snoc]; exact h3⟩
    · rw [if_neg ho]
      have := at_publish h1 e
      cases hp : publish P s.stage e with
      | invalid => exact ⟨by rw [hist_snoc]; exact h1, by rw [hist_snoc]; exact h2, by rw [hist_snoc]; exact h3⟩
      | ended ok => exact ⟨by rw [hist_snoc]; exact h1, by rw [hist_snoc]; exact h2, by rw [hist_snoc]; rfl⟩
      | next st =>
        rw [hp] at this
        generalize answer P (hist tr).fed e = r at this
        cases this with
        | next _ a => exact ⟨by rw [hist_snoc]; exact a, by rw [hist_snoc]; exact h2, by rw [hist_snoc]; exact h3⟩
  | incoming more =>
    simp only [step]
    split
    · exact ⟨by rw [hist_snoc]; exact h1, by rw [hist_snoc]; exact h2, by rw [hist_snoc]; exact h3⟩
    · split
      · refine ⟨by rw [hist_snoc]; exact h1, ?_, by rw [hist_snoc]; exact h3⟩
        rw [hist_snoc]
        simp only [see, List.map_append, h2]
        rfl
      · exact ⟨by rw [hist_snoc]; exact h1, by rw [hist_snoc]; exact h2, by rw [hist_snoc]; rfl⟩
  | accept n ok =>
    simp only [step]
    split
    · exact ⟨by rw [hist_snoc]; exact h1, by rw [hist_snoc]; exact h2, by rw [hist_snoc]; exact h3⟩
    · rename_i hc
      simp only [Bool.or_eq_true, bne_iff_ne, ne_eq, not_or, Decidable.not_not] at hc
      have hx : ∀ x, (hist tr).conns[n]? = some x → stateOf x = .waiting := by
        intro x hx
        have := hc.2
        rw [← h2, List.getElem?_map, hx] at this
        exact Option.some.inj this
      split
      · refine ⟨by rw [hist_snoc]; exact h1, ?_, by rw [hist_snoc]; exact h3⟩
        rw [hist_snoc]
        simp only [see, ← h2]
        refine map_modify fun x h => ?_
        have := hx x h
        simp only [stateOf] at this ⊢
        cases hg : x.gone <;> simp_all
      · refine ⟨by rw [hist_snoc]; exact h1, ?_, by rw [hist_snoc]; exact h3⟩
        rw [hist_snoc]
        simp only [see, ← h2]
        exact map_modify fun x _ => rfl
  | closed n =>
    simp only [step]
    split
    · exact ⟨by rw [hist_snoc]; exact h1, by rw [hist_snoc]; exact h2, by rw [hist_snoc]; exact h3⟩
    · refine ⟨by rw [hist_snoc]; exact h1, ?_, by rw [hist_snoc]; exact h3⟩
      rw [hist_snoc]
      simp only [see, ← h2]
      exact map_modify fun x _ => rfl
  | web ok =>
    simp only [step]
    split
    · exact ⟨by rw [hist_snoc]; exact h1, by rw [hist_snoc]; exact h2, by rw [hist_snoc]; exact h3⟩
    · exact ⟨by rw [hist_snoc]; exact h1, by rw [hist_snoc]; exact h2, by rw [hist_snoc]; rfl⟩
  | ctrlC =>
    simp only [step]
    split
    · exact ⟨by rw [hist_snoc]; exact h1, by rw [hist_snoc]; exact h2, by rw [hist_snoc]; exact h3⟩
    · exact ⟨by rw [hist_snoc]; exact h1, by rw [hist_snoc]; exact h2, by rw [hist_snoc]; rfl⟩

variable {P : Params Atom Err σ} {tr : Trace σ} {s : State σ}

theorem inv_reach (h : (machine P).Reach tr s) : Inv P tr s :=
  Machine.Reach.induct (M := machine P) (P := fun tr s => Inv P tr s)
    ⟨.ftyp, rfl, rfl⟩ (fun tr s op _ v => inv_step P tr s op v) h

/-- Every connection that was accepted and is still there sees what the importer has made of the input so far, whatever becomes of the
others. -/
theorem c128_shown (h : (machine P).Reach tr s) (n : Nat) :
    (step P s (.look n)).1 =
      .shown (if !(hist tr).over && (hist tr).conns[n]? == some ⟨true, false⟩ then some (made P (hist tr).fed) else none) := by
  obtain ⟨h1, h2, h3⟩ := inv_reach h
  rw [h3, ← at_made h1]
  simp only [step, ← h2, List.getElem?_map]
  rcases (hist tr).conns[n]? with _ | ⟨_ | _, _ | _⟩ <;> cases s.over <;> rfl

theorem c128_input (h : (machine P).Reach tr s) (e : Event σ) :
    (step P s (.input e)).1 =
      if (hist tr).over then .invalid
      else
        match answer P (hist tr).fed e with
        | .invalid => .invalid
        | .goes => .ok
        | .ends ok => .exit (if ok then .ok else .err) := by
  obtain ⟨h1, h2, h3⟩ := inv_reach h
  rw [h3]
  simp only [step]
  by_cases ho : s.over = true
  · rw [if_pos ho, if_pos ho]
  · rw [if_neg ho, if_neg ho]
    have := at_publish h1 e
    generalize publish P s.stage e = q at this
    generalize answer P (hist tr).fed e = r at this
    cases this <;> rfl

/-- Connections come and go; one that fails is a panic of its task only. -/
theorem c128_connections (h : (machine P).Reach tr s) :
    (∀ more, (step P s (.incoming more)).1 =
      if (hist tr).over then .invalid else if more then .conn (hist tr).conns.length else .exit .ok) ∧
    (∀ n ok, (step P s (.accept n ok)).1 =
      if !(hist tr).over && (hist tr).conns[n]? == some ⟨false, false⟩ then (if ok then .ok else .panicked) else .invalid) ∧
    (∀ n, (step P s (.closed n)).1 =
      if !(hist tr).over && (hist tr).conns[n]? == some ⟨true, false⟩ then .ok else .invalid) := by
  obtain ⟨h1, h2, h3⟩ := inv_reach h
  rw [h3]
  refine ⟨fun more => ?_, fun n ok => ?_, fun n => ?_⟩
  · simp only [step, ← h2, List.length_map]
    cases s.over <;> cases more <;> rfl
  · simp only [step, ← h2, List.getElem?_map]
    rcases (hist tr).conns[n]? with _ | ⟨_ | _, _ | _⟩ <;> cases s.over <;> cases ok <;> rfl
  · simp only [step, ← h2, List.getElem?_map]
    rcases (hist tr).conns[n]? with _ | ⟨_ | _, _ | _⟩ <;> cases s.over <;> rfl

/-- What else ends the process. -/
theorem c128_ends (h : (machine P).Reach tr s) :
    (∀ ok, (step P s (.web ok)).1 = if (hist tr).over then .invalid else .exit (if ok then .ok else .err)) ∧
    (step P s .ctrlC).1 = if (hist tr).over then .invalid else .exit .killed := by
  rw [(inv_reach h).over]
  simp only [step]
  cases s.over <;> simp [exit, result]

/-- What happens to a connection does not touch what another one sees. -/
theorem c128_isolated (s : State σ) (n m : Nat) (hm : m ≠ n) (op : Op σ)
    (hop : (∃ ok, op = .accept m ok) ∨ op = .closed m ∨ op = .look m) :
    (step P (step P s op).2 (.look n)).1 = (step P s (.look n)).1 := by
  rcases hop with ⟨ok, rfl⟩ | rfl | rfl
  · simp only [step]
    split
    · rfl
    · split <;> simp [hm]
  · simp only [step]
    split
    · rfl
    · simp [hm]
  · rfl

/-- After the end of the process nothing happens. -/
theorem c128_over (h : (machine P).Reach tr s) (ho : (hist tr).over = true) (op : Op σ) :
    (step P s op).2 = s ∧ ((step P s op).1 = .invalid ∨ (step P s op).1 = .shown none) := by
  have hs : s.over = true := by rw [← (inv_reach h).over]; exact ho
  cases op <;> simp [step, hs]

abbrev sample := machine Import.sized

/-- Three connections, of which one fails and one leaves; the third came late and sees everything. -/
example : ∃ (tr : Trace (List Bytes)) (s : State (List Bytes)), sample.Reach tr s ∧ (hist tr).over = false ∧
    (step Import.sized s (.look 0)).1 = .shown none ∧ (step Import.sized s (.look 1)).1 = .shown none ∧
    (step Import.sized s (.look 2)).1 = .shown (some (some [[1], [3, 7, 8]])) :=
  ⟨_, _, sample.reach_run [.incoming true, .incoming true, .accept 0 true, .input (.ftyp true), .accept 1 false,
    .input (.moov (some [[1]])), .closed 0, .input (.data [3, 7]), .incoming true, .accept 2 true, .input (.data [8, 2])],
    by decide +kernel, by decide +kernel, by decide +kernel, by decide +kernel⟩

/-- At the end of the input the server ends, with connections that are still watching. -/
theorem c128_cut_off : ∃ (tr : Trace (List Bytes)) (s : State (List Bytes)), sample.Reach tr s ∧
    (step Import.sized s (.look 0)).1 = .shown (some (some [[2, 9]])) ∧ (step Import.sized s (.input .eof)).1 = .exit .ok ∧
    (step Import.sized (step Import.sized s (.input .eof)).2 (.look 0)).1 = .shown none :=
  ⟨_, _, sample.reach_run [.incoming true, .accept 0 true, .input (.ftyp true), .input (.moov (some [])), .input (.data [2, 9])],
    by decide +kernel, by decide +kernel, by decide +kernel⟩

end Server

end Verif.Props.Cli
