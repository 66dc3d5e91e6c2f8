import Verif.Relay.WebSpec
import Verif.Model.OriginLemmas

/-!
# Lemmas on the HTTP requests
-/

set_option autoImplicit false

namespace Verif.Relay.Web

open Verif Verif.Relay.Web.Spec
open Verif.Model.Origin (Path)
open Verif.Model.Origin.Spec (under expected delivered book note)

/-! ## Texts -/

theorem split_ne_nil (sep : Char) (s : Path) : split sep s ≠ [] := by
  cases s with
  | nil => simp [split]
  | cons c s =>
    unfold split
    split
    · simp
    · split <;> simp

theorem split_of_not_mem {sep : Char} {w : Path} (h : sep ∉ w) : split sep w = [w] := by
  induction w with
  | nil => rfl
  | cons c w ih =>
    rw [List.mem_cons, not_or] at h
    unfold split
    rw [if_neg (fun e => h.1 e.symm), ih h.2]

theorem split_append {sep : Char} {w : Path} (h : sep ∉ w) (s : Path) :
    split sep (w ++ sep :: s) = w :: split sep s := by
  induction w with
  | nil => simp [split]
  | cons c w ih =>
    rw [List.mem_cons, not_or] at h
    have hc : c ≠ sep := fun e => h.1 e.symm
    simp only [List.cons_append, split, hc, if_false, ih h.2]

theorem split_pieces (sep : Char) (s : Path) : ∀ w ∈ split sep s, sep ∉ w := by
  induction s with
  | nil => simp [split]
  | cons c s ih =>
    unfold split
    split
    · intro w hw
      rcases List.mem_cons.1 hw with rfl | hw
      · simp
      · exact ih w hw
    · rename_i hc
      split
      · intro w hw
        have := List.mem_singleton.1 hw
        subst this
        simpa using fun e => hc e.symm
      · rename_i v vs hv
        intro w hw
        rw [hv] at ih
        rcases List.mem_cons.1 hw with rfl | hw
        · have := ih v (List.mem_cons_self)
          rw [List.mem_cons, not_or]
          exact ⟨fun e => hc e.symm, this⟩
        · exact ih w (List.mem_cons_of_mem _ hw)

theorem join_split (sep : Char) (s : Path) : join sep (split sep s) = s := by
  induction s with
  | nil => rfl
  | cons c s ih =>
    unfold split
    split
    · rename_i hc
      subst hc
      cases hs : split c s with
      | nil => exact absurd hs (split_ne_nil c s)
      | cons w ws =>
        rw [hs] at ih
        simp only [join, List.nil_append, ih]
    · cases hs : split sep s with
      | nil => exact absurd hs (split_ne_nil sep s)
      | cons w ws =>
        rw [hs] at ih
        simp only
        cases ws with
        | nil => simp only [join] at ih ⊢; rw [ih]
        | cons v vs => simp only [join] at ih ⊢; rw [List.cons_append, ih]

theorem split_join {sep : Char} {l : List Path} (hl : l ≠ []) (h : ∀ w ∈ l, sep ∉ w) :
    split sep (join sep l) = l := by
  induction l with
  | nil => exact absurd rfl hl
  | cons w ws ih =>
    cases ws with
    | nil => exact split_of_not_mem (h w (by simp))
    | cons v vs =>
      simp only [join]
      rw [split_append (h w (by simp)), ih (by simp) (fun x hx => h x (List.mem_cons_of_mem _ hx))]

theorem join_snoc (sep : Char) (l : List Path) (hl : l ≠ []) (w : Path) :
    join sep (l ++ [w]) = join sep l ++ sep :: w := by
  induction l with
  | nil => exact absurd rfl hl
  | cons v vs ih =>
    cases vs with
    | nil => rfl
    | cons u us =>
      have := ih (by simp)
      simp only [List.cons_append] at this ⊢
      simp only [join, this, List.append_assoc, List.cons_append]

theorem fetchPath_some {path b t : Path} :
    fetchPath path = some (b, t) ↔ path = b ++ '/' :: t ∧ '/' ∉ t := by
  unfold fetchPath
  simp only
  constructor
  · intro h
    split at h
    · cases h
    · rename_i hlen
      injection h with h
      injection h with h1 h2
      have hne := split_ne_nil '/' path
      have hd : split '/' path = (split '/' path).dropLast ++ [(split '/' path).getLast hne] :=
        (List.dropLast_concat_getLast hne).symm
      have hx : (split '/' path).getLast?.getD [] = (split '/' path).getLast hne := by
        rw [List.getLast?_eq_some_getLast hne]; rfl
      have hdl : (split '/' path).dropLast ≠ [] := by
        intro he
        have : (split '/' path).dropLast.length = 0 := by rw [he]; rfl
        rw [List.length_dropLast] at this
        omega
      constructor
      · have := join_split '/' path
        rw [hd, join_snoc _ _ hdl, h1, ← hx, h2] at this
        exact this.symm
      · rw [← h2, hx]
        exact split_pieces '/' path _ (List.getLast_mem hne)
  · rintro ⟨rfl, ht⟩
    have key : ∀ b : Path, split '/' (b ++ '/' :: t) = split '/' b ++ [t] := by
      intro b
      induction b with
      | nil => simp [split, split_of_not_mem ht]
      | cons c b ih =>
        rw [List.cons_append]
        unfold split
        rw [ih]
        split
        · rfl
        · cases hs : split '/' b with
          | nil => exact absurd hs (split_ne_nil _ _)
          | cons w ws => rfl
    rw [key b]
    have hn := split_ne_nil '/' b
    have hl : ¬ (split '/' b ++ [t]).length < 2 := by
      have := List.length_pos_iff.2 hn
      simp
      omega
    rw [if_neg hl, List.dropLast_concat, join_split]
    simp

theorem fetchPath_none {path : Path} : fetchPath path = none ↔ '/' ∉ path := by
  constructor
  · intro h hm
    obtain ⟨b, t, rfl, ht⟩ : ∃ b t, path = b ++ '/' :: t ∧ '/' ∉ t := by
      clear h
      induction path with
      | nil => cases hm
      | cons c s ih =>
        by_cases hs : '/' ∈ s
        · obtain ⟨b, t, rfl, ht⟩ := ih hs
          exact ⟨c :: b, t, rfl, ht⟩
        · rcases List.mem_cons.1 hm with rfl | hm
          · exact ⟨[], s, rfl, hs⟩
          · exact absurd hm hs
    rw [fetchPath_some.2 ⟨rfl, ht⟩] at h
    cases h
  · intro h
    unfold fetchPath
    simp [split_of_not_mem h]

/-! ## The listing -/

theorem begun_snoc (tr : Model.Origin.Spec.Trace) (e : Model.Origin.Op × Model.Origin.Out) :
    begun (tr ++ [e]) = begun tr ++ begun [e] := by
  simp [begun, List.filterMap_append]

theorem calls_append (a b : Trace) : calls (a ++ b) = calls a ++ calls b := by
  simp [calls, List.filterMap_append]

theorem reach_calls {tr : Trace} {s : State} (h : machine.Reach tr s) :
    Model.Origin.machine.Reach (calls tr) s.o := by
  refine Machine.Reach.induct (M := machine)
    (P := fun tr s => Model.Origin.machine.Reach (calls tr) s.o) ?_ ?_ h
  · exact .init
  · intro tr s op _ ih
    have one : ∀ o, Model.Origin.machine.Reach
        (calls tr ++ [(o, (Model.Origin.step s.o o).1)]) (Model.Origin.step s.o o).2 :=
      fun o => Machine.Reach.step (M := Model.Origin.machine) o ih
    rw [calls_append]
    cases op with
    | other o =>
      simp only [step]
      split
      · exact one o
      · simpa [calls] using ih
    | request p pre order =>
      simp only [step]
      split
      · simpa [calls] using ih
      · split <;> exact one _
    | turn =>
      simp only [step]
      (repeat' split) <;> first | exact one _ | simpa [calls] using ih

/-- What the history says about a consumer since its creation. -/
structure Since (b : Model.Origin.Spec.Book) (c : Nat) (pre : Path) (l : List (Path × Nat)) : Prop where
  pre : (b.view c).pre = pre
  expected : (b.view c).expected = l
  ex : (b.view c).exists' = true
  clean : (b.view c).clean = true

theorem snoc_cases {α : Type} {a x y : List α} {e v : α} (h : a ++ [e] = x ++ v :: y) :
    (a = x ∧ e = v ∧ y = []) ∨ ∃ y', y = y' ++ [e] ∧ a = x ++ v :: y' := by
  rcases List.eq_nil_or_concat y with rfl | ⟨y', z, hy⟩
  rotate_left
  rw [List.concat_eq_append] at hy
  subst hy
  rotate_left
  · have := List.append_inj' h rfl
    exact .inl ⟨this.1, by simpa using this.2, rfl⟩
  · have h' : a ++ [e] = (x ++ v :: y') ++ [z] := by rw [h]; simp
    have := List.append_inj' h' rfl
    have hz : e = z := by simpa using this.2
    subst hz
    exact .inr ⟨y', rfl, this.1⟩

theorem since_reach {tr : Model.Origin.Spec.Trace} {s : Model.Origin.State}
    (h : Model.Origin.machine.Reach tr s) :
    ∀ {t₁ t₂ : Model.Origin.Spec.Trace} {p c : Nat} {pre : Path} {order : List (Path × Nat)},
      tr = t₁ ++ (.consumePrefix p pre order, .handle c) :: t₂ →
        c < s.consumers.length ∧ Since (book tr) c pre (under pre order ++ under pre (begun t₂)) := by
  refine Machine.Reach.induct (M := Model.Origin.machine)
    (P := fun tr s => ∀ {t₁ t₂ : Model.Origin.Spec.Trace} {p c : Nat} {pre : Path}
      {order : List (Path × Nat)}, tr = t₁ ++ (.consumePrefix p pre order, .handle c) :: t₂ →
        c < s.consumers.length ∧ Since (book tr) c pre (under pre order ++ under pre (begun t₂)))
    ?_ ?_ h
  · intro t₁ t₂ p c pre order he
    simp at he
  · intro tr s op _ ih t₁ t₂ p c pre order he
    rw [Model.Origin.book_snoc]
    rcases snoc_cases he with ⟨rfl, hev, rfl⟩ | ⟨t', rfl, htr⟩
    · injection hev with hop hout
      subst hop
      have hc : c = s.consumers.length ∧
          (Model.Origin.step s (.consumePrefix p pre order)).2.consumers.length =
            s.consumers.length + 1 := by
        revert hout
        simp only [Model.Origin.step]
        (repeat' split) <;> simp_all [Slots.add]
      refine ⟨by rw [hc.2, hc.1]; omega, ?_⟩
      rw [hout]
      constructor <;> simp [note, begun, under]
    · obtain ⟨hlt, hs⟩ := ih htr
      rw [begun_snoc, Model.Origin.under_append]
      have hlen : s.consumers.length ≤ (Model.Origin.step s op).2.consumers.length := by
        cases op <;> simp only [Model.Origin.step] <;> (repeat' split) <;>
          simp [Slots.add, Slots.put, Model.Origin.wake_length]
      refine ⟨Nat.lt_of_lt_of_le hlt hlen, ?_⟩
      have hne : ∀ d, (Model.Origin.step s op).1 = .handle d →
          (∀ p, op ≠ .cloneProducer p) → c ≠ d := by
        intro d hd hp
        cases op <;> simp only [Model.Origin.step] at hd <;> revert hd <;>
          (repeat' split) <;> intro hd <;> first | cases hd; omega | cases hd | skip
        all_goals exact absurd rfl (hp _)
      generalize hout : (Model.Origin.step s op).1 = out at hne ⊢
      have quiet : ∀ b' : Model.Origin.Spec.Book,
          (b'.view c).pre = ((book tr).view c).pre ∧
          (b'.view c).expected = ((book tr).view c).expected ∧
          (((book tr).view c).exists' = true → (b'.view c).exists' = true) ∧
          (b'.view c).clean = ((book tr).view c).clean → begun [(op, out)] = [] →
          Since b' c pre (under pre order ++ (under pre (begun t') ++ under pre (begun [(op, out)]))) := by
        intro b' ⟨h1, h2, h3, h4⟩ hg
        rw [hg]
        constructor
        · rw [h1]; exact hs.pre
        · rw [h2, hs.expected]; simp [under]
        · exact h3 hs.ex
        · rw [h4]; exact hs.clean
      cases op <;> cases out <;> first
        | exact quiet _ ⟨rfl, rfl, id, rfl⟩ rfl
        | (refine quiet _ ?_ rfl
           simp only [note]
           rw [if_neg (hne _ rfl (by simp))]
           exact ⟨rfl, rfl, id, rfl⟩)
        | (refine quiet _ ?_ rfl
           simp only [note]
           split
           · exact ⟨rfl, rfl, fun h => by first | exact h | rfl, rfl⟩
           · exact ⟨rfl, rfl, id, rfl⟩)
        | skip
      constructor <;> simp only [note, hs.ex, if_true]
      · exact hs.pre
      · rw [hs.expected, hs.pre, List.append_assoc]; rfl
      · exact hs.clean

theorem fresh {s : Model.Origin.State} {op : Model.Origin.Op} {d : Nat}
    (h : (Model.Origin.step s op).1 = .handle d) (hp : ∀ p, op ≠ .cloneProducer p) :
    d = s.consumers.length := by
  cases op <;> simp only [Model.Origin.step] at h <;> revert h <;>
    (repeat' split) <;> intro h <;> first | cases h; rfl | cases h | skip
  all_goals exact absurd rfl (hp _)

/-- The operations reserved to the owner of a consumer. -/
def owned (c : Nat) : Model.Origin.Op → Bool
  | .check d | .recv d | .cancel d | .cloneStart d | .dropConsumer d => d == c
  | _ => false

theorem delivered_other {tr : Model.Origin.Spec.Trace} {s : Model.Origin.State} {c : Nat}
    (hc : c < s.consumers.length) {op : Model.Origin.Op} (ho : op ≠ .check c) :
    delivered (tr ++ [(op, (Model.Origin.step s op).1)]) c = delivered tr c := by
  unfold delivered
  rw [Model.Origin.book_snoc]
  generalize hout : (Model.Origin.step s op).1 = out
  have hne : ∀ d, out = .handle d → (∀ p, op ≠ .cloneProducer p) → c ≠ d := by
    intro d hd hp
    have := fresh (hout.trans hd) hp
    omega
  cases op <;> cases out <;> first
    | rfl
    | (simp only [note]; rw [if_neg (hne _ rfl (by simp))])
    | (simp only [note]; split <;> rfl)
    | skip
  rename_i d _ _
  have hd : c ≠ d := fun e => ho (by rw [e])
  simp only [note]
  rw [if_neg hd]

theorem consumer_other {s : Model.Origin.State} {c : Nat} {k : Model.Origin.Cons}
    (hk : s.consumers.get c = some k) (hph : k.phase ≠ .cloning) {op : Model.Origin.Op}
    (ho : owned c op = false) :
    ∃ k' xs, (Model.Origin.step s op).2.consumers.get c = some k' ∧ k'.phase = k.phase ∧
      k'.updates = k.updates ++ xs := by
  have same : ∃ k' xs, s.consumers.get c = some k' ∧ k'.phase = k.phase ∧
      k'.updates = k.updates ++ xs := ⟨k, [], hk, rfl, by simp⟩
  have put : ∀ d v, d ≠ c → ∃ k' xs, (s.consumers.put d v).get c = some k' ∧ k'.phase = k.phase ∧
      k'.updates = k.updates ++ xs := by
    intro d v hd
    exact ⟨k, [], by rw [Slots.get_put_ne _ hd]; exact hk, rfl, by simp⟩
  have add : ∀ v, ∃ k' xs, (s.consumers.add v).get c = some k' ∧ k'.phase = k.phase ∧
      k'.updates = k.updates ++ xs := by
    intro v
    refine ⟨k, [], ?_, rfl, by simp⟩
    rw [Slots.get_add]
    rw [if_neg (by have := Slots.get_some_lt hk; omega)]
    exact hk
  have putSelf : ∀ v : Model.Origin.Cons, (∃ xs, v.phase = k.phase ∧ v.updates = k.updates ++ xs) →
      ∃ k' xs, (s.consumers.put c (some v)).get c = some k' ∧ k'.phase = k.phase ∧
        k'.updates = k.updates ++ xs := by
    rintro v ⟨xs, h1, h2⟩
    exact ⟨v, xs, Slots.get_put_self _ hk, h1, h2⟩
  cases op with
  | publishStep =>
    simp only [Model.Origin.step]
    split
    · exact same
    · split
      · rename_i d _
        simp only [Model.Origin.wake]
        split
        · rename_i kd hkd
          by_cases hd : d = c
          · subst hd
            rw [hk] at hkd
            cases hkd
            exact putSelf _ ⟨[], rfl, by simp⟩
          · exact put _ _ hd
        · exact same
      · split
        · rename_i d _
          split
          · exact same
          · rename_i kd hkd
            split
            · by_cases hd : d = c
              · subst hd
                rw [hk] at hkd
                cases hkd
                exact putSelf _ ⟨_, rfl, rfl⟩
              · exact put _ _ hd
            · exact same
        · exact same
  | cloneFinish d =>
    simp only [Model.Origin.step]
    split
    · exact same
    · rename_i kd hkd
      by_cases hd : d = c
      · subst hd
        rw [hk] at hkd
        cases hkd
        rw [if_neg hph]
        exact same
      · (repeat' split) <;> first | exact same | exact put _ _ hd
  | check d =>
    have hd : d ≠ c := by simpa [owned] using ho
    simp only [Model.Origin.step]
    (repeat' split) <;> first | exact same | exact put _ _ hd
  | recv d =>
    have hd : d ≠ c := by simpa [owned] using ho
    simp only [Model.Origin.step]
    (repeat' split) <;> first | exact same | exact put _ _ hd
  | cancel d =>
    have hd : d ≠ c := by simpa [owned] using ho
    simp only [Model.Origin.step]
    (repeat' split) <;> first | exact same | exact put _ _ hd
  | dropConsumer d =>
    have hd : d ≠ c := by simpa [owned] using ho
    simp only [Model.Origin.step]
    (repeat' split) <;> first | exact same | exact put _ _ hd
  | cloneStart d =>
    simp only [Model.Origin.step]
    (repeat' split) <;> first | exact same | exact add _
  | _ =>
    simp only [Model.Origin.step]
    (repeat' split) <;> first | exact same | exact add _

/-- The loop of a request, with the consumer it uses. -/
structure Loop (tr : Model.Origin.Spec.Trace) (o : Model.Origin.State) (q : Req)
    (first : List (Path × Nat)) (k : Model.Origin.Cons) : Prop where
  get : o.consumers.get q.c = some k
  got : q.got = (delivered tr q.c).map (·.1)
  phase : k.phase = match q.phase with
    | .polling | .leaving => .waiting
    | _ => .idle
  first : match q.phase with
    | .checking => first <+: delivered tr q.c ++ k.updates
    | _ => first <+: delivered tr q.c

theorem Loop.not_cloning {tr : Model.Origin.Spec.Trace} {o : Model.Origin.State} {q : Req}
    {first : List (Path × Nat)} {k : Model.Origin.Cons} (h : Loop tr o q first k) :
    k.phase ≠ .cloning := by
  rw [h.phase]
  cases q.phase <;> simp

theorem Loop.other {tr : Model.Origin.Spec.Trace} {o : Model.Origin.State} {q : Req}
    {first : List (Path × Nat)} {k : Model.Origin.Cons} (h : Loop tr o q first k)
    {op : Model.Origin.Op} (ho : owned q.c op = false) :
    ∃ k', Loop (tr ++ [(op, (Model.Origin.step o op).1)]) (Model.Origin.step o op).2 q first k' := by
  obtain ⟨k', xs, h1, h2, h3⟩ := consumer_other h.get h.not_cloning ho
  have hd := delivered_other (tr := tr) (Slots.get_some_lt h.get) (op := op)
    (fun e => by rw [e] at ho; simp [owned] at ho)
  refine ⟨k', h1, ?_, ?_, ?_⟩
  · rw [hd]; exact h.got
  · rw [h2]; exact h.phase
  · rw [hd, h3]
    have := h.first
    cases hq : q.phase <;> rw [hq] at this <;> simp only at this ⊢
    · rw [← List.append_assoc]
      exact this.trans (List.prefix_append _ _)
    all_goals exact this

theorem Loop.turn {tr : Model.Origin.Spec.Trace} {s : State} {q : Req}
    {first : List (Path × Nat)} {k : Model.Origin.Cons} (hq : s.req = some q)
    (h : Loop tr s.o q first k) :
    ∃ q' k', (step s .turn).2.req = some q' ∧ q'.c = q.c ∧
      Loop (tr ++ calls [(.turn, (step s .turn).1)]) (step s .turn).2.o q' first k' := by
  have hk := h.get
  have hph := h.phase
  have hf := h.first
  have hlt := Slots.get_some_lt hk
  cases hp : q.phase with
  | checking =>
    rw [hp] at hph hf
    simp only at hph hf
    cases hu : k.updates with
    | nil =>
      have hr : Model.Origin.step s.o (.check q.c) = (.empty, { s.o with
          consumers := s.o.consumers.put q.c (some { k with phase := .waiting }) }) := by
        simp [Model.Origin.step, hk, hph, hu]
      have hs : step s .turn = (.did (.check q.c) .empty none,
          { o := { s.o with consumers := s.o.consumers.put q.c (some { k with phase := .waiting }) },
            req := some { q with phase := .polling } }) := by
        simp [step, hq, hp, hr]
      rw [hs]
      have hd : delivered (tr ++ calls [(.turn, .did (.check q.c) .empty none)]) q.c =
          delivered tr q.c := by
        simp [calls, delivered, Model.Origin.book_snoc, note]
      refine ⟨_, { k with phase := .waiting }, rfl, rfl, Slots.get_put_self _ hk, ?_, rfl, ?_⟩
      · simp only [hd]; exact h.got
      · simp only [hd]; rw [hu, List.append_nil] at hf; exact hf
    | cons e rest =>
      obtain ⟨suffix, bc⟩ := e
      have hr : Model.Origin.step s.o (.check q.c) = (.item suffix bc, { s.o with
          consumers := s.o.consumers.put q.c (some { k with updates := rest }) }) := by
        simp [Model.Origin.step, hk, hph, hu]
      have hs : step s .turn = (.did (.check q.c) (.item suffix bc) none,
          { o := { s.o with consumers := s.o.consumers.put q.c (some { k with updates := rest }) },
            req := some { q with got := q.got ++ [suffix] } }) := by
        simp [step, hq, hp, hr]
      rw [hs]
      have hd : delivered (tr ++ calls [(.turn, .did (.check q.c) (.item suffix bc) none)]) q.c =
          delivered tr q.c ++ [(suffix, bc)] := by
        simp [calls, delivered, Model.Origin.book_snoc, note]
      refine ⟨_, { k with updates := rest }, rfl, rfl, Slots.get_put_self _ hk, ?_, ?_, ?_⟩
      · simp only [hd, List.map_append, h.got]; rfl
      · simp only [hp]; exact hph
      · simp only [hp, hd]
        rw [hu] at hf
        simpa using hf
  | polling =>
    rw [hp] at hph hf
    simp only at hph hf
    by_cases ht : k.token
    · have hr : Model.Origin.step s.o (.recv q.c) = (.woken, { s.o with
          consumers := s.o.consumers.put q.c (some { k with token := false, phase := .idle }) }) := by
        simp [Model.Origin.step, hk, hph, ht]
      have hs : step s .turn = (.did (.recv q.c) .woken none,
          { o := { s.o with
              consumers := s.o.consumers.put q.c (some { k with token := false, phase := .idle }) },
            req := some { q with phase := .checking } }) := by
        simp [step, hq, hp, hr]
      rw [hs]
      have hd : delivered (tr ++ calls [(.turn, .did (.recv q.c) .woken none)]) q.c =
          delivered tr q.c := by
        simp [calls, delivered, Model.Origin.book_snoc, note]
      refine ⟨_, { k with token := false, phase := .idle }, rfl, rfl, Slots.get_put_self _ hk, ?_, rfl, ?_⟩
      · simp only [hd]; exact h.got
      · simp only [hd]; exact hf.trans (List.prefix_append _ _)
    · by_cases ha : (s.o.alive && decide (q.c ∈ s.o.entries)) = true
      · have hr : Model.Origin.step s.o (.recv q.c) = (.pending, s.o) := by
          simp only [Model.Origin.step, hk, hph, ht, ha, if_true, if_false, Bool.false_eq_true]
        have hs : step s .turn = (.did (.recv q.c) .pending none,
            { o := s.o, req := some { q with phase := .leaving } }) := by
          simp [step, hq, hp, hr]
        rw [hs]
        have hd : delivered (tr ++ calls [(.turn, .did (.recv q.c) .pending none)]) q.c =
            delivered tr q.c := by
          simp [calls, delivered, Model.Origin.book_snoc, note]
        refine ⟨_, k, rfl, rfl, hk, ?_, hph, ?_⟩
        · simp only [hd]; exact h.got
        · simp only [hd]; exact hf
      · have hr : Model.Origin.step s.o (.recv q.c) = (.ended, { s.o with
            consumers := s.o.consumers.put q.c (some { k with phase := .idle }) }) := by
          simp only [Model.Origin.step, hk, hph, ht, ha, if_true, if_false, Bool.false_eq_true]
        have hs : step s .turn = (.did (.recv q.c) .ended (some q.got),
            { o := { s.o with consumers := s.o.consumers.put q.c (some { k with phase := .idle }) },
              req := some { q with phase := .done } }) := by
          simp [step, hq, hp, hr]
        rw [hs]
        have hd : delivered (tr ++ calls [(.turn, .did (.recv q.c) .ended (some q.got))]) q.c =
            delivered tr q.c := by
          simp [calls, delivered, Model.Origin.book_snoc, note]
        refine ⟨_, { k with phase := .idle }, rfl, rfl, Slots.get_put_self _ hk, ?_, rfl, ?_⟩
        · simp only [hd]; exact h.got
        · simp only [hd]; exact hf
  | leaving =>
    rw [hp] at hph hf
    simp only at hph hf
    have hr : Model.Origin.step s.o (.cancel q.c) = (.ok, { s.o with
        consumers := s.o.consumers.put q.c (some { k with phase := .idle }) }) := by
      simp [Model.Origin.step, hk, hph]
    have hs : step s .turn = (.did (.cancel q.c) .ok (some q.got),
        { o := { s.o with consumers := s.o.consumers.put q.c (some { k with phase := .idle }) },
          req := some { q with phase := .done } }) := by
      simp [step, hq, hp, hr]
    rw [hs]
    have hd : delivered (tr ++ calls [(.turn, .did (.cancel q.c) .ok (some q.got))]) q.c =
        delivered tr q.c := by
      simp [calls, delivered, Model.Origin.book_snoc, note]
    refine ⟨_, { k with phase := .idle }, rfl, rfl, Slots.get_put_self _ hk, ?_, rfl, ?_⟩
    · simp only [hd]; exact h.got
    · simp only [hd]; exact hf
  | done =>
    have hs : step s .turn = (.invalid, s) := by simp [step, hq, hp]
    rw [hs]
    refine ⟨q, k, hq, rfl, ?_⟩
    simpa [calls] using h

theorem loop_reach {tr : Trace} {s : State} (h : machine.Reach tr s) :
    ∀ {t₁ t₂ : Trace} {p c : Nat} {pre : Path} {order : List (Path × Nat)}
      {op : Model.Origin.Op} {l : Option (List Path)},
      tr = t₁ ++ (.request p pre order, .did op (.handle c) l) :: t₂ →
        op = .consumePrefix p pre order ∧
          ∃ q k, s.req = some q ∧ q.c = c ∧ Loop (calls tr) s.o q (under pre order) k := by
  refine Machine.Reach.induct (M := machine) (P := fun tr s =>
    ∀ {t₁ t₂ : Trace} {p c : Nat} {pre : Path} {order : List (Path × Nat)}
      {op : Model.Origin.Op} {l : Option (List Path)},
      tr = t₁ ++ (.request p pre order, .did op (.handle c) l) :: t₂ →
        op = .consumePrefix p pre order ∧
          ∃ q k, s.req = some q ∧ q.c = c ∧ Loop (calls tr) s.o q (under pre order) k) ?_ ?_ h
  · intro t₁ t₂ p c pre order op l he
    simp at he
  · intro tr s op hr ih t₁ t₂ p c pre order o l he
    rcases snoc_cases he with ⟨rfl, hev, rfl⟩ | ⟨t', rfl, htr⟩
    · injection hev with hop hout
      subst hop
      rw [calls_append]
      revert hout
      cases hq : s.req with
      | some q => simp [step, hq]
      | none =>
        cases hp : s.o.producers.get p with
        | none => simp [step, hq, Model.Origin.step, hp]
        | some _ =>
          cases hu : s.o.pub with
          | some _ => simp [step, hq, Model.Origin.step, hp, hu]
          | none =>
            by_cases hperm : order.isPerm s.o.active = true
            · have hs : step s (.request p pre order) =
                  (.did (.consumePrefix p pre order) (.handle s.o.consumers.length) none,
                    { o := { s.o with
                        consumers := s.o.consumers.add ⟨pre, Model.Origin.matching pre order, false, .idle⟩
                        entries := s.o.entries ++ [s.o.consumers.length] }
                      req := some ⟨s.o.consumers.length, [], .checking⟩ }) := by
                simp [step, hq, Model.Origin.step, hp, hu, hperm]
              intro hout
              have hs' : machine.step s (.request p pre order) = _ := hs
              rw [hs'] at hout ⊢
              injection hout with h1 h2 h3
              subst h1
              injection h2 with h2
              subst h2
              refine ⟨rfl, _, ⟨pre, Model.Origin.matching pre order, false, .idle⟩, rfl, rfl, ?_, ?_,
                rfl, ?_⟩
              · simp [Slots.get_add]
              · simp [calls, delivered, Model.Origin.book_snoc, note]
              · simp only [Model.Origin.matching_eq_under]
                simp [calls, delivered, Model.Origin.book_snoc, note]
            · simp [step, hq, Model.Origin.step, hp, hu, hperm]
    · obtain ⟨h1, q, k, hq, hc, hl⟩ := ih htr
      refine ⟨h1, ?_⟩
      rw [calls_append]
      cases op with
      | other op =>
        by_cases hpm : s.permitted op = true
        · have hs : machine.step s (.other op) = (.did op (Model.Origin.step s.o op).1 none,
              { s with o := (Model.Origin.step s.o op).2 }) := by
            simp [step, hpm]
          rw [hs]
          have ho : owned q.c op = false := by
            revert hpm
            cases op <;> simp [State.permitted, hq, owned]
          obtain ⟨k', hk'⟩ := hl.other ho
          exact ⟨q, k', hq, hc, hk'⟩
        · have hs : machine.step s (.other op) = (.invalid, s) := by simp [step, hpm]
          rw [hs]
          exact ⟨q, k, hq, hc, by simpa [calls] using hl⟩
      | request p' pre' order' =>
        have hs : machine.step s (.request p' pre' order') = (.invalid, s) := by simp [step, hq]
        rw [hs]
        exact ⟨q, k, hq, hc, by simpa [calls] using hl⟩
      | turn =>
        obtain ⟨q', k', h1, h2, h3⟩ := hl.turn hq
        exact ⟨q', k', h1, h2.trans hc, h3⟩

end Verif.Relay.Web
