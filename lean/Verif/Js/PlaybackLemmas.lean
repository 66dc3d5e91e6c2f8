import Verif.Js.Playback

/-! # Lemmas about the model of the frames of a player -/

set_option autoImplicit false

namespace Verif.Js.Playback

open Verif

theorem outputs_snoc (tr : Trace) (op : Op) (o : Out) : outputs (tr ++ [(op, o)]) = outputs tr ++
    (match op with
    | .output t => [t]
    | _ => []) := by
  unfold outputs
  rw [List.filterMap_append]
  cases op <;> rfl

theorem shut_snoc (tr : Trace) (op : Op) (o : Out) : shut (tr ++ [(op, o)]) = shut tr ++
    (match o with
    | .shut ids => ids
    | .nothing => []
    | .shown ids _ _ => ids) := by
  unfold shut
  rw [List.flatMap_append]
  cases o <;> simp

theorem shown_snoc (tr : Trace) (op : Op) (o : Out) : shown (tr ++ [(op, o)]) = shown tr ++
    (match o with
    | .shown _ f _ => [f]
    | _ => []) := by
  unfold shown
  rw [List.filterMap_append]
  cases o <;> rfl

/-- A step of the fold of `refs`. -/
def look (acc : List Int × List Int) (e : Op × Out) : List Int × List Int :=
  match e with
  | (.output t, _) => (acc.1 ++ [t], acc.2)
  | (.frame now, .shown ids f _) =>
    (acc.1, acc.2 ++ ids.map (fun i => (acc.1[i]?).getD 0 - now) ++ [f.timestamp - now])
  | _ => acc

theorem refs_look (tr : Trace) : refs tr = (tr.foldl look ([], [])).2 := rfl

theorem look_fst (tr : Trace) (acc : List Int × List Int) : (tr.foldl look acc).1 = acc.1 ++ outputs tr := by
  induction tr generalizing acc with
  | nil => simp [outputs]
  | cons e tr ih =>
    obtain ⟨op, o⟩ := e
    rw [List.foldl_cons, ih]
    cases op with
    | output t => simp [look, outputs]
    | frame now => cases o <;> simp [look, outputs]
    | close => simp [look, outputs]

theorem refs_snoc (tr : Trace) (op : Op) (o : Out) : refs (tr ++ [(op, o)]) = refs tr ++
    (match op, o with
    | .frame now, .shown ids f _ =>
      ids.map (fun i => ((outputs tr)[i]?).getD 0 - now) ++ [f.timestamp - now]
    | _, _ => []) := by
  have h := look_fst tr ([], [])
  rw [List.nil_append] at h
  rw [refs_look, refs_look, List.foldl_append, List.foldl_cons, List.foldl_nil, ← h]
  cases op with
  | output t => simp [look]
  | frame now => cases o <;> simp [look]
  | close => simp [look]

/-- The frames that are held. -/
def held (s : State) : List Frame := s.current.toList ++ s.next.toList

structure Inv (tr : Trace) (s : State) : Prop where
  count : (outputs tr).length = s.count
  cur : s.next.isSome = true → s.current.isSome = true
  all : shut tr ++ (held s).map (·.id) = List.range s.count
  time : ∀ f ∈ held s, (outputs tr)[f.id]? = some f.timestamp
  some : ∀ x, s.ref = some x → x ∈ refs tr
  none : s.ref = none → refs tr = []
  max : (0 : Int) ∉ refs tr → ∀ x, s.ref = Option.some x → ∀ r ∈ refs tr, r ≤ x

theorem newRef_cases (ref : Option Int) (r : Int) :
    (newRef ref r = r ∧ (∀ x, ref = some x → x = 0 ∨ x < r)) ∨
    ∃ x, ref = some x ∧ newRef ref r = x ∧ x ≠ 0 ∧ r ≤ x := by
  cases ref with
  | none => exact .inl ⟨rfl, by simp⟩
  | some x =>
    simp only [newRef]
    split
    · next h => exact .inl ⟨rfl, fun y hy => by injection hy with hy; subst hy; exact h⟩
    · next h => exact .inr ⟨x, rfl, rfl, fun e => h (.inl e), by omega⟩

theorem newRef_ge (ref : Option Int) (r : Int) : r ≤ newRef ref r := by
  rcases newRef_cases ref r with ⟨h, -⟩ | ⟨x, -, h, -, h'⟩ <;> rw [h]
  · exact Int.le_refl _
  · exact h'

/-- The reference after looking at one more frame. -/
structure RefInv (l : List Int) (ref : Option Int) : Prop where
  some : ∀ x, ref = some x → x ∈ l
  none : ref = none → l = []
  max : (0 : Int) ∉ l → ∀ x, ref = Option.some x → ∀ r ∈ l, r ≤ x

theorem RefInv.next {l : List Int} {ref : Option Int} (i : RefInv l ref) (r : Int) :
    RefInv (l ++ [r]) (Option.some (newRef ref r)) := by
  rcases newRef_cases ref r with ⟨h, h'⟩ | ⟨x, hx, h, h0, h'⟩
  · rw [h]
    refine ⟨by simp, by simp, ?_⟩
    rintro hn x hx y hy
    injection hx with hx
    subst hx
    rcases List.mem_append.mp hy with hy | hy
    · cases ref with
      | none => rw [i.none rfl] at hy; cases hy
      | some z =>
        have hz := i.some z rfl
        have hl : (0 : Int) ∉ l := fun h => hn (List.mem_append_left _ h)
        have h1 := i.max hl z rfl y hy
        have h2 := (h' z rfl).resolve_left fun e => hl (e ▸ hz)
        omega
    · rw [List.mem_singleton.mp hy]
      exact Int.le_refl _
  · rw [h]
    refine ⟨?_, by simp, ?_⟩
    · intro y hy
      injection hy with hy
      subst hy
      exact List.mem_append_left _ (i.some _ hx)
    · rintro hn y hy z hz
      injection hy with hy
      subst hy
      rcases List.mem_append.mp hz with hz | hz
      · exact i.max (fun h => hn (List.mem_append_left _ h)) _ hx z hz
      · rw [List.mem_singleton.mp hz]
        exact h'

theorem Inv.ref {tr : Trace} {s : State} (i : Inv tr s) : RefInv (refs tr) s.ref := ⟨i.some, i.none, i.max⟩

/-- What `frame` does. -/
inductive Look (s : State) (now : Int) : Out → State → Prop where
  | nothing (h : s.current = none) : Look s now .nothing s
  | keep (c : Frame) (h : s.current = some c)
      (hn : ∀ n, s.next = some n → newRef s.ref (c.timestamp - now) - (c.timestamp - now) ≤ n.timestamp - c.timestamp) :
      Look s now (.shown [] c (newRef s.ref (c.timestamp - now) - (c.timestamp - now)))
        { s with ref := some (newRef s.ref (c.timestamp - now)) }
  | skip (c n : Frame) (h : s.current = some c) (hn : s.next = some n)
      (hl : n.timestamp - c.timestamp < newRef s.ref (c.timestamp - now) - (c.timestamp - now)) :
      Look s now (.shown [c.id] n
          (newRef (some (newRef s.ref (c.timestamp - now))) (n.timestamp - now) - (n.timestamp - now)))
        { s with
          current := some n
          next := none
          ref := some (newRef (some (newRef s.ref (c.timestamp - now))) (n.timestamp - now)) }

theorem frame_look (s : State) (now : Int) : Look s now (frame s now).1 (frame s now).2 := by
  unfold frame
  split
  · next h => exact .nothing h
  · next c h =>
    dsimp only
    split
    · next hn => exact .keep c h (by rw [hn]; simp)
    · next n hn =>
      split
      · next hl => exact .keep c h fun m hm => by rw [hn] at hm; injection hm with hm; subst hm; exact hl
      · next hl => exact .skip c n h hn (by omega)

theorem held_some {s : State} {c : Frame} (h : s.current = some c) : held s = c :: s.next.toList := by
  unfold held
  rw [h]
  rfl

theorem inv_step {tr : Trace} {s : State} (op : Op) (i : Inv tr s) :
    Inv (tr ++ [(op, (step s op).1)]) (step s op).2 := by
  cases op with
  | output t =>
    have key : ∀ (s' : State) (ids : List Nat), s'.count = s.count + 1 → s'.ref = s.ref →
        (s'.next.isSome = true → s'.current.isSome = true) →
        (∃ l, held s' = l ++ [⟨s.count, t⟩] ∧ ids ++ l.map (·.id) = (held s).map (·.id) ∧ ∀ f ∈ l, f ∈ held s) →
        Inv (tr ++ [(.output t, .shut ids)]) s' := by
      rintro s' ids h1 h2 h3 ⟨l, h4, h5, h6⟩
      have hr : refs (tr ++ [(.output t, .shut ids)]) = refs tr := by rw [refs_snoc]; simp
      refine ⟨?_, h3, ?_, ?_, ?_, ?_, ?_⟩
      · rw [outputs_snoc, List.length_append, i.count, h1]
        rfl
      · rw [shut_snoc, h4, List.map_append, List.append_assoc, ← List.append_assoc ids, h5,
          ← List.append_assoc, i.all, h1, List.range_succ]
        rfl
      · intro f hf
        rw [outputs_snoc]
        rw [h4] at hf
        rcases List.mem_append.mp hf with hf | hf
        · have := i.time f (h6 f hf)
          rw [List.getElem?_append_left (List.getElem?_eq_some_iff.mp this).1, this]
        · rw [List.mem_singleton.mp hf]
          dsimp only
          rw [← i.count, List.getElem?_concat_length]
      · rw [hr, h2]; exact i.some
      · rw [hr, h2]; exact i.none
      · rw [hr, h2]; exact i.max
    rw [show step s (.output t) = output s t from rfl]
    unfold output
    dsimp only
    split
    · next hc =>
      have hn : s.next = none := by
        cases h : s.next with
        | none => rfl
        | some n => have := i.cur (by rw [h]; rfl); rw [hc] at this; cases this
      refine key _ _ rfl rfl (by simp) ⟨[], by simp [held, hn], by simp [held, hc, hn], by simp⟩
    · next c hc hn =>
      refine key _ _ rfl rfl (by simp [hc]) ⟨[c], by simp [held, hc], by simp [held, hc, hn], by simp [held, hc]⟩
    · next c n hc hn =>
      refine key _ _ rfl rfl (by simp) ⟨[n], by simp [held], by simp [held, hc, hn], by simp [held, hn]⟩
  | frame now =>
    have k := frame_look s now
    rw [show step s (.frame now) = frame s now from rfl]
    generalize (frame s now).1 = o at k
    generalize (frame s now).2 = s' at k
    have ho : ∀ o, outputs (tr ++ [(.frame now, o)]) = outputs tr := fun o => by rw [outputs_snoc]; simp
    cases k with
    | nothing h =>
      have hr : refs (tr ++ [(.frame now, .nothing)]) = refs tr := by rw [refs_snoc]; simp
      refine ⟨by rw [ho]; exact i.count, i.cur, ?_, by rw [ho]; exact i.time, by rw [hr]; exact i.some,
        by rw [hr]; exact i.none, by rw [hr]; exact i.max⟩
      rw [shut_snoc, List.append_nil, i.all]
    | keep c h hn =>
      have hr : RefInv (refs (tr ++ [(.frame now, .shown [] c
          (newRef s.ref (c.timestamp - now) - (c.timestamp - now)))]))
          (some (newRef s.ref (c.timestamp - now))) := by
        rw [refs_snoc]
        exact i.ref.next _
      refine ⟨by rw [ho]; exact i.count, i.cur, ?_, by rw [ho]; exact i.time, hr.some, hr.none, hr.max⟩
      rw [shut_snoc, List.append_nil]
      exact i.all
    | skip c n h hn hl =>
      have hc : (outputs tr)[c.id]? = some c.timestamp := i.time c (by simp [held, h])
      have hr : RefInv (refs (tr ++ [(.frame now, .shown [c.id] n
          (newRef (some (newRef s.ref (c.timestamp - now))) (n.timestamp - now) - (n.timestamp - now)))]))
          (some (newRef (some (newRef s.ref (c.timestamp - now))) (n.timestamp - now))) := by
        rw [refs_snoc]
        simp only [List.map_cons, List.map_nil, hc, Option.getD_some]
        rw [← List.append_assoc]
        exact (i.ref.next _).next _
      refine ⟨by rw [ho]; exact i.count, by simp, ?_, ?_, hr.some, hr.none, hr.max⟩
      · rw [shut_snoc]
        have := i.all
        unfold held at this ⊢
        rw [h, hn] at this
        simpa using this
      · intro f hf
        rw [ho]
        refine i.time f ?_
        unfold held at hf ⊢
        rw [hn]
        simp at hf
        simp [hf]
  | close =>
    have hr : ∀ ids, refs (tr ++ [(.close, .shut ids)]) = refs tr := fun ids => by rw [refs_snoc]; simp
    have ho : ∀ o, outputs (tr ++ [(.close, o)]) = outputs tr := fun o => by rw [outputs_snoc]; simp
    rw [show step s .close = close s from rfl]
    unfold close
    dsimp only
    refine ⟨by rw [ho]; exact i.count, by simp, ?_, by simp [held], by rw [hr]; exact i.some,
        by rw [hr]; exact i.none, by rw [hr]; exact i.max⟩
    rw [shut_snoc]
    have := i.all
    unfold held at this ⊢
    cases h1 : s.current <;> cases h2 : s.next <;> rw [h1, h2] at this <;> simpa using this

theorem inv_reach {tr : Trace} {s : State} (h : machine.Reach tr s) : Inv tr s := by
  refine Machine.Reach.induct (M := machine) (P := fun tr s => Inv tr s) ?_ ?_ h
  · exact ⟨rfl, by simp [init], rfl, by simp [held, init], by simp [init], fun _ => rfl, by simp [init]⟩
  · intro tr s op _ i
    exact inv_step op i

end Verif.Js.Playback
