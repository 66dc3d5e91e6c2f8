import Verif.Relay.MainSpec
import Verif.Props.Auth

/-!
# Properties of the main loop of the relay (C88)
-/

set_option autoImplicit false

namespace Verif.Props.Main

open Verif Verif.Relay.Token Verif.Relay.Main Verif.Relay.Main.Spec
open Verif.Relay.Auth (Auth validate)

variable {verify : Key → Text → Except Error Payload} {a : Auth}

theorem started_snoc (tr : Trace) (op : Op) (o : Out) :
    started (tr ++ [(op, o)]) = started tr ++ (match o with | .started k => [k] | _ => []) := by
  cases o <;> simp [started]

theorem shaken_snoc (tr : Trace) (op : Op) (o : Out) :
    shaken (tr ++ [(op, o)]) = shaken tr ++ (match op, o with | .shake k url, .ok => [(k, url)] | _, _ => []) := by
  cases op <;> cases o <;> simp [shaken]

/-- The fate told by an answer. -/
def fateOf : Out → List (Nat × Fate)
  | .dropped k => [(k, .dropped)]
  | .refused k => [(k, .refused)]
  | .admitted k id p => [(k, .admitted id p)]
  | _ => []

theorem fates_snoc (tr : Trace) (op : Op) (o : Out) : fates (tr ++ [(op, o)]) = fates tr ++ fateOf o := by
  cases o <;> simp [fates, fateOf]

theorem ids_snoc (tr : Trace) (op : Op) (o : Out) :
    ids (tr ++ [(op, o)]) = ids tr ++ (match o with | .admitted _ id _ => [id] | _ => []) := by
  cases o <;> simp [ids]

theorem arrivals_snoc (tr : Trace) (op : Op) (o : Out) :
    arrivals (tr ++ [(op, o)]) = arrivals tr + (match o with | .arrived _ => 1 | _ => 0) := by
  cases o <;> simp [arrivals]

/-- What is known about a connection in this stage. -/
def StageOk (tr : Trace) (k : Nat) : Stage → Prop
  | .queued => (started tr).length ≤ k ∧ k ∉ (shaken tr).map (·.1) ∧ k ∉ (fates tr).map (·.1)
  | .shaking => k < (started tr).length ∧ k ∉ (shaken tr).map (·.1) ∧ k ∉ (fates tr).map (·.1)
  | .ready url => k < (started tr).length ∧ (k, url) ∈ shaken tr ∧ k ∉ (fates tr).map (·.1)
  | .over => k < (started tr).length

/-- What holds of every reachable state. -/
structure Inv (verify : Key → Text → Except Error Payload) (a : Auth) (tr : Trace) (s : State) : Prop where
  len : s.conns.length = arrivals tr
  fifo : started tr = List.range (started tr).length
  bound : (started tr).length ≤ s.conns.length
  stage : ∀ (k : Nat) (st : Stage), s.conns[k]? = some st → StageOk tr k st
  shaken : ∀ k url, (k, url) ∈ shaken tr → s.conns[k]? = some (.ready url) ∨
    (s.conns[k]? = some .over ∧ (k ∈ (fates tr).map (·.1) ∨ s.status = .crashed))
  fate : ∀ k f, (k, f) ∈ fates tr → s.conns[k]? = some .over ∧
    ∃ url, (k, url) ∈ Spec.shaken tr ∧ Deserved verify a url f
  once : ((fates tr).map (·.1)).Nodup
  unique : ((Spec.shaken tr).map (·.1)).Nodup
  ids : ids tr = List.range s.next
  crashed : s.status = .crashed → ∃ k url e, (k, some url) ∈ Spec.shaken tr ∧ validate verify a url = .panic e
  undisturbed : Undisturbed tr → s.status ≠ .stopped ∧ s.closed = false ∧ s.signal = false

theorem init_inv : Inv verify a [] init := by
  refine ⟨rfl, rfl, Nat.le_refl _, ?_, ?_, ?_, List.nodup_nil, List.nodup_nil, rfl, ?_, ?_⟩
  · intro k st h; cases h
  · intro k url h; cases h
  · intro k f h; cases h
  · intro h; cases h
  · intro _; exact ⟨by simp [init], rfl, rfl⟩

theorem stageOk_congr {tr tr' : Trace} (h1 : started tr' = started tr) (h2 : shaken tr' = shaken tr)
    (h3 : fates tr' = fates tr) (k : Nat) (st : Stage) : StageOk tr' k st ↔ StageOk tr k st := by
  cases st <;> simp [StageOk, h1, h2, h3]

theorem undisturbed_snoc {tr : Trace} {e : Op × Out} (h : Undisturbed (tr ++ [e])) : Undisturbed tr :=
  fun o => ⟨fun hm => (h o).1 (List.mem_append_left _ hm), fun hm => (h o).2 (List.mem_append_left _ hm)⟩

/-- An operation without effect on connections. -/
theorem quiet_inv {tr : Trace} {s s' : State} (i : Inv verify a tr s) (op : Op) (o : Out)
    (h1 : started (tr ++ [(op, o)]) = started tr) (h2 : Spec.shaken (tr ++ [(op, o)]) = Spec.shaken tr)
    (h3 : fateOf o = []) (h4 : ∀ k, o ≠ .arrived k)
    (hc : s'.conns = s.conns) (hn : s'.next = s.next) (hs : s.status = .crashed → s'.status = .crashed)
    (hcr : s'.status = .crashed → s.status = .crashed ∨
      ∃ k url e, (k, some url) ∈ Spec.shaken tr ∧ validate verify a url = .panic e)
    (hu : Undisturbed (tr ++ [(op, o)]) → s'.status ≠ .stopped ∧ s'.closed = false ∧ s'.signal = false) :
    Inv verify a (tr ++ [(op, o)]) s' := by
  have h3' : fates (tr ++ [(op, o)]) = fates tr := by rw [fates_snoc, h3, List.append_nil]
  have h5 : ids (tr ++ [(op, o)]) = ids tr := by
    rw [ids_snoc]; cases o <;> simp_all [fateOf]
  have h6 : arrivals (tr ++ [(op, o)]) = arrivals tr := by
    rw [arrivals_snoc]; cases o <;> simp_all
  obtain ⟨a1, a2, a3, a4, a5, a6, a7, a8, a9, a10, a11⟩ := i
  refine ⟨?_, ?_, ?_, ?_, ?_, ?_, ?_, ?_, ?_, ?_, hu⟩
  · rw [hc, h6]; exact a1
  · rw [h1]; exact a2
  · rw [h1, hc]; exact a3
  · intro k st h
    rw [hc] at h
    exact (stageOk_congr h1 h2 h3' k st).2 (a4 k st h)
  · intro k url h
    rw [h2] at h
    rw [hc, h3']
    rcases a5 k url h with h | ⟨h, h' | h'⟩
    · exact .inl h
    · exact .inr ⟨h, .inl h'⟩
    · exact .inr ⟨h, .inr (hs h')⟩
  · intro k f h
    rw [h3'] at h
    rw [hc, h2]
    exact a6 k f h
  · rw [h3']; exact a7
  · rw [h2]; exact a8
  · rw [h5, hn]; exact a9
  · intro h
    rw [h2]
    rcases hcr h with h | h
    · exact a10 h
    · exact h

theorem firstQueued_some {cs : List Stage} {k : Nat} (h : firstQueued cs = some k) :
    cs[k]? = some .queued ∧ ∀ j, j < k → cs[j]? ≠ some .queued := by
  unfold firstQueued at h
  rw [List.findIdx?_eq_some_iff_getElem] at h
  obtain ⟨hk, h1, h2⟩ := h
  refine ⟨?_, ?_⟩
  · rw [List.getElem?_eq_getElem hk]; simpa using h1
  · intro j hj hq
    have hjl : j < cs.length := by omega
    rw [List.getElem?_eq_getElem hjl] at hq
    have := h2 j hj
    simp_all

/-- The handshake of a connection leaves the set of futures. -/
theorem over_inv {tr : Trace} {s : State} (i : Inv verify a tr s) {k : Nat} {url : Option Text}
    (hk : s.conns[k]? = some (.ready url)) (b : Branch) (o : Out) (s' : State)
    (hc : s'.conns = s.conns.set k .over) (hcl : s'.closed = s.closed) (hsig : s'.signal = s.signal)
    (hs : s.status = .running)
    (ho : (∃ f, fateOf o = [(k, f)] ∧ Deserved verify a url f ∧ s'.status = .running) ∨
      (o = .crashed ∧ s'.status = .crashed ∧ ∃ u e, url = some u ∧ validate verify a u = .panic e))
    (hid : (match o with | .admitted _ id _ => id = s.next ∧ s'.next = s.next + 1 | _ => s'.next = s.next)) :
    Inv verify a (tr ++ [(.poll b, o)]) s' := by
  have h1 : started (tr ++ [(.poll b, o)]) = started tr := by
    rw [started_snoc]
    rcases ho with ⟨f, h, -⟩ | ⟨rfl, -⟩
    · cases o <;> simp_all [fateOf]
    · simp
  have h2 : Spec.shaken (tr ++ [(.poll b, o)]) = Spec.shaken tr := by rw [shaken_snoc]; simp
  have h6 : arrivals (tr ++ [(.poll b, o)]) = arrivals tr := by
    rw [arrivals_snoc]
    rcases ho with ⟨f, h, -⟩ | ⟨rfl, -⟩
    · cases o <;> simp_all [fateOf]
    · simp
  have hst := i.stage k _ hk
  have hlt : k < s.conns.length := by
    rcases Nat.lt_or_ge k s.conns.length with h | h
    · exact h
    · rw [List.getElem?_eq_none h] at hk; cases hk
  have hget : ∀ j, s'.conns[j]? = if j = k then some .over else s.conns[j]? := by
    intro j
    rw [hc, List.getElem?_set]
    by_cases h : j = k
    · subst h; simp [hlt]
    · have : k ≠ j := fun h' => h h'.symm
      simp [h, this]
  refine ⟨?_, ?_, ?_, ?_, ?_, ?_, ?_, ?_, ?_, ?_, ?_⟩
  · rw [hc, h6, List.length_set]; exact i.len
  · rw [h1]; exact i.fifo
  · rw [h1, hc, List.length_set]; exact i.bound
  · intro j st h
    rw [hget] at h
    by_cases hj : j = k
    · subst hj
      rw [if_pos rfl] at h
      injection h with h
      subst h
      simp only [StageOk, h1]
      exact hst.1
    · rw [if_neg hj] at h
      have := i.stage j st h
      have hnf : j ∉ (fateOf o).map (·.1) := by
        rcases ho with ⟨f, h, -⟩ | ⟨rfl, -⟩
        · rw [h]; simpa using hj
        · simp [fateOf]
      cases st <;> simp only [StageOk, h1, h2, fates_snoc, List.map_append, List.mem_append] at this ⊢
      · exact ⟨this.1, this.2.1, fun h => h.elim this.2.2 hnf⟩
      · exact ⟨this.1, this.2.1, fun h => h.elim this.2.2 hnf⟩
      · exact ⟨this.1, this.2.1, fun h => h.elim this.2.2 hnf⟩
      · exact this
  · intro j u h
    rw [h2] at h
    rw [hget, fates_snoc, List.map_append]
    by_cases hj : j = k
    · rw [if_pos hj]
      right
      refine ⟨rfl, ?_⟩
      rcases ho with ⟨f, h, -⟩ | ⟨rfl, h, -⟩
      · left; rw [h]; simp [hj]
      · right; exact h
    · rw [if_neg hj]
      rcases i.shaken j u h with h | ⟨h, h' | h'⟩
      · exact .inl h
      · exact .inr ⟨h, .inl (List.mem_append_left _ h')⟩
      · rw [hs] at h'; cases h'
  · intro j f h
    rw [fates_snoc] at h
    rw [hget, h2]
    rcases List.mem_append.1 h with h | h
    · obtain ⟨x1, x2⟩ := i.fate j f h
      refine ⟨?_, x2⟩
      split
      · rfl
      · exact x1
    · rcases ho with ⟨f', hf, hd, -⟩ | ⟨rfl, -⟩
      · rw [hf] at h
        have := List.mem_singleton.1 h
        injection this with hj hf'
        subst hj hf'
        exact ⟨by simp, url, hst.2.1, hd⟩
      · cases h
  · rw [fates_snoc, List.map_append, List.nodup_append]
    refine ⟨i.once, ?_, ?_⟩
    · rcases ho with ⟨f, h, -⟩ | ⟨rfl, -⟩
      · rw [h]; simp
      · simp [fateOf]
    · intro x hx y hy
      rcases ho with ⟨f, h, -⟩ | ⟨rfl, -⟩
      · rw [h] at hy
        simp only [List.map_cons, List.map_nil, List.mem_singleton] at hy
        subst hy
        intro hxy
        subst hxy
        exact hst.2.2 hx
      · cases hy
  · rw [h2]; exact i.unique
  · rw [ids_snoc]
    cases o <;> simp only at hid <;> simp only [List.append_nil, i.ids, hid]
    rw [List.range_succ]
  · intro h
    rw [h2]
    rcases ho with ⟨f, -, -, h'⟩ | ⟨-, -, u, e, rfl, hv⟩
    · rw [h'] at h; cases h
    · exact ⟨k, u, e, hst.2.1, hv⟩
  · intro h
    obtain ⟨-, x2, x3⟩ := i.undisturbed (undisturbed_snoc h)
    refine ⟨?_, by rw [hcl]; exact x2, by rw [hsig]; exact x3⟩
    rcases ho with ⟨f, -, -, h'⟩ | ⟨-, h', -⟩
    · rw [h']; simp
    · rw [h']; simp

/-- An operation that does nothing. -/
theorem none_inv {tr : Trace} {s : State} (i : Inv verify a tr s) (op : Op) (o : Out)
    (ho : o = .invalid ∨ o = .pending) : Inv verify a (tr ++ [(op, o)]) s := by
  refine quiet_inv i op o ?_ ?_ ?_ ?_ rfl rfl id .inl (fun h => i.undisturbed (undisturbed_snoc h))
  · rw [started_snoc]; rcases ho with rfl | rfl <;> simp
  · rw [shaken_snoc]; rcases ho with rfl | rfl <;> cases op <;> simp
  · rcases ho with rfl | rfl <;> rfl
  · rcases ho with rfl | rfl <;> simp

theorem set_get {α : Type} {l : List α} {k : Nat} {x : α} (h : l[k]? = some x) (y : α) (j : Nat) :
    (l.set k y)[j]? = if j = k then some y else l[j]? := by
  have hlt : k < l.length := by
    rcases Nat.lt_or_ge k l.length with h' | h'
    · exact h'
    · rw [List.getElem?_eq_none h'] at h; cases h
  rw [List.getElem?_set]
  by_cases h : j = k
  · subst h; simp [hlt]
  · have : k ≠ j := fun h' => h h'.symm
    simp [h, this]

theorem step_inv {tr : Trace} {s : State} (i : Inv verify a tr s) (op : Op) :
    Inv verify a (tr ++ [(op, (step verify a s op).1)]) (step verify a s op).2 := by
  cases op with
  | arrive =>
    simp only [step]
    by_cases hc : s.closed = true
    · rw [if_pos hc]; exact none_inv i _ _ (.inl rfl)
    · rw [if_neg hc]
      have h1 : started (tr ++ [(.arrive, .arrived s.conns.length)]) = started tr := by rw [started_snoc]; simp
      have h2 : Spec.shaken (tr ++ [(.arrive, .arrived s.conns.length)]) = Spec.shaken tr := by
        rw [shaken_snoc]; simp
      have h3 : fates (tr ++ [(.arrive, .arrived s.conns.length)]) = fates tr := by
        rw [fates_snoc]; simp [fateOf]
      have hold : ∀ (k : Nat) (st : Stage), s.conns[k]? = some st → (s.conns ++ [.queued])[k]? = some st := by
        intro k st h
        have hlt : k < s.conns.length := by
          rcases Nat.lt_or_ge k s.conns.length with h' | h'
          · exact h'
          · rw [List.getElem?_eq_none h'] at h; cases h
        rw [List.getElem?_append_left hlt]; exact h
      refine ⟨?_, ?_, ?_, ?_, ?_, ?_, ?_, ?_, ?_, ?_, ?_⟩
      · rw [arrivals_snoc]; simp [i.len]
      · rw [h1]; exact i.fifo
      · rw [h1]; have := i.bound; simp only [List.length_append]; omega
      · intro k st h
        refine (stageOk_congr h1 h2 h3 k st).2 ?_
        rcases Nat.lt_or_ge k s.conns.length with hk | hk
        · rw [List.getElem?_append_left hk] at h
          exact i.stage k st h
        · rw [List.getElem?_append_right hk] at h
          cases hz : k - s.conns.length with
          | zero =>
            rw [hz] at h
            simp only [List.getElem?_cons_zero, Option.some.injEq] at h
            subst h
            refine ⟨Nat.le_trans i.bound hk, ?_, ?_⟩
            · intro hm
              obtain ⟨⟨k', u⟩, hm', rfl⟩ := List.mem_map.1 hm
              simp only at hk
              rcases i.shaken k' u hm' with h | ⟨h, -⟩ <;> rw [List.getElem?_eq_none hk] at h <;> cases h
            · intro hm
              obtain ⟨⟨k', f⟩, hm', rfl⟩ := List.mem_map.1 hm
              simp only at hk
              have := (i.fate k' f hm').1
              rw [List.getElem?_eq_none hk] at this; cases this
          | succ n => rw [hz] at h; cases h
      · intro k url h
        rw [h2] at h
        rw [h3]
        rcases i.shaken k url h with h | ⟨h, h'⟩
        · exact .inl (hold _ _ h)
        · exact .inr ⟨hold _ _ h, h'⟩
      · intro k f h
        rw [h3] at h
        rw [h2]
        exact ⟨hold _ _ (i.fate k f h).1, (i.fate k f h).2⟩
      · rw [h3]; exact i.once
      · rw [h2]; exact i.unique
      · rw [ids_snoc]; simpa using i.ids
      · rw [h2]; exact i.crashed
      · intro h; exact i.undisturbed (undisturbed_snoc h)
  | shake k url =>
    simp only [step]
    by_cases hk : s.conns[k]? = some .shaking
    · rw [if_pos hk]
      have hst := i.stage k _ hk
      have h1 : started (tr ++ [(.shake k url, .ok)]) = started tr := by rw [started_snoc]; simp
      have h2 : Spec.shaken (tr ++ [(.shake k url, .ok)]) = Spec.shaken tr ++ [(k, url)] := by
        rw [shaken_snoc]
      have h3 : fates (tr ++ [(.shake k url, .ok)]) = fates tr := by rw [fates_snoc]; simp [fateOf]
      have hget := set_get hk (.ready url)
      refine ⟨?_, ?_, ?_, ?_, ?_, ?_, ?_, ?_, ?_, ?_, ?_⟩
      · rw [arrivals_snoc]; simp [i.len]
      · rw [h1]; exact i.fifo
      · rw [h1]; simpa using i.bound
      · intro j st h
        simp only [hget] at h
        by_cases hj : j = k
        · subst hj
          rw [if_pos rfl] at h
          injection h with h
          subst h
          simp only [StageOk, h1, h2, h3]
          exact ⟨hst.1, List.mem_append_right _ (by simp), hst.2.2⟩
        · rw [if_neg hj] at h
          have := i.stage j st h
          cases st <;> simp only [StageOk, h1, h2, h3, List.map_append, List.mem_append, List.map_cons,
            List.map_nil, List.mem_singleton] at this ⊢
          · exact ⟨this.1, fun h => h.elim this.2.1 hj, this.2.2⟩
          · exact ⟨this.1, fun h => h.elim this.2.1 hj, this.2.2⟩
          · exact ⟨this.1, .inl this.2.1, this.2.2⟩
          · exact this
      · intro j u h
        rw [h2] at h
        simp only [hget]
        rw [h3]
        rcases List.mem_append.1 h with h4 | h
        · have hne : j ≠ k := by
            rintro rfl
            exact hst.2.1 (List.mem_map.2 ⟨(_, u), h4, rfl⟩)
          rw [if_neg hne]
          exact i.shaken j u h4
        · have := List.mem_singleton.1 h
          injection this with h4 h5
          subst h4 h5
          left; rw [if_pos rfl]
      · intro j f h
        rw [h3] at h
        obtain ⟨x1, u, x2, x3⟩ := i.fate j f h
        simp only [hget]
        rw [h2]
        refine ⟨?_, u, List.mem_append_left _ x2, x3⟩
        have hne : j ≠ k := by
          rintro rfl
          rw [hk] at x1; cases x1
        rw [if_neg hne]; exact x1
      · rw [h3]; exact i.once
      · rw [h2, List.map_append, List.nodup_append]
        refine ⟨i.unique, by simp, ?_⟩
        intro x hx y hy
        simp only [List.map_cons, List.map_nil, List.mem_singleton] at hy
        subst hy
        rintro rfl
        exact hst.2.1 hx
      · rw [ids_snoc]; simpa using i.ids
      · intro h
        obtain ⟨k', u, e, x1, x2⟩ := i.crashed h
        rw [h2]
        exact ⟨k', u, e, List.mem_append_left _ x1, x2⟩
      · intro h; exact i.undisturbed (undisturbed_snoc h)
    · rw [if_neg hk]; exact none_inv i _ _ (.inl rfl)
  | press =>
    refine quiet_inv i _ _ ?_ ?_ rfl (by simp [step]) rfl rfl id .inl ?_
    · rw [started_snoc]; simp [step]
    · rw [shaken_snoc]; simp
    · intro h; exact absurd (List.mem_append_right _ (List.mem_singleton.2 rfl)) (h _).1
  | closeEndpoint =>
    refine quiet_inv i _ _ ?_ ?_ rfl (by simp [step]) rfl rfl id .inl ?_
    · rw [started_snoc]; simp [step]
    · rw [shaken_snoc]; simp
    · intro h; exact absurd (List.mem_append_right _ (List.mem_singleton.2 rfl)) (h _).2
  | poll b =>
    by_cases hr : s.status = .running
    · cases b with
      | incoming =>
        cases hq : firstQueued s.conns with
        | none =>
          by_cases hcl : s.closed = true
          · have he : step verify a s (.poll .incoming) = (.stopped, { s with status := .stopped }) := by
              simp [step, hr, hq, hcl]
            rw [he]
            refine quiet_inv i _ _ ?_ ?_ rfl (by simp) rfl rfl ?_ ?_ ?_
            · rw [started_snoc]; simp
            · rw [shaken_snoc]; simp
            · intro h; rw [hr] at h; cases h
            · intro h; cases h
            · intro h
              have := (i.undisturbed (undisturbed_snoc h)).2.1
              rw [hcl] at this; cases this
          · have he : step verify a s (.poll .incoming) = (.pending, s) := by simp [step, hr, hq, hcl]
            rw [he]; exact none_inv i _ _ (.inr rfl)
        | some k =>
          obtain ⟨hk, hfirst⟩ := firstQueued_some hq
          have he : step verify a s (.poll .incoming) =
              (.started k, { s with conns := s.conns.set k .shaking }) := by simp [step, hr, hq]
          rw [he]
          have hst := i.stage k _ hk
          have hkn : k = (started tr).length := by
            refine Nat.le_antisymm ?_ hst.1
            refine Nat.le_of_not_lt fun hlt => ?_
            have hb : (started tr).length < s.conns.length := by
              rcases Nat.lt_or_ge k s.conns.length with h' | h'
              · omega
              · rw [List.getElem?_eq_none h'] at hk; cases hk
            have hx := List.getElem?_eq_getElem hb
            cases hy : s.conns[(started tr).length] <;> rw [hy] at hx
            · exact hfirst _ hlt hx
            · exact absurd (i.stage _ _ hx).1 (Nat.lt_irrefl _)
            · exact absurd (i.stage _ _ hx).1 (Nat.lt_irrefl _)
            · exact absurd (i.stage _ _ hx) (Nat.lt_irrefl _)
          have h1 : started (tr ++ [(.poll .incoming, .started k)]) = started tr ++ [k] := by rw [started_snoc]
          have h2 : Spec.shaken (tr ++ [(.poll .incoming, .started k)]) = Spec.shaken tr := by
            rw [shaken_snoc]; simp
          have h3 : fates (tr ++ [(.poll .incoming, .started k)]) = fates tr := by
            rw [fates_snoc]; simp [fateOf]
          have hget := set_get hk .shaking
          have hlt : k < s.conns.length := by
            rcases Nat.lt_or_ge k s.conns.length with h' | h'
            · exact h'
            · rw [List.getElem?_eq_none h'] at hk; cases hk
          refine ⟨?_, ?_, ?_, ?_, ?_, ?_, ?_, ?_, ?_, ?_, ?_⟩
          · rw [arrivals_snoc]; simp [i.len]
          · rw [h1, List.length_append, List.length_singleton, List.range_succ, ← i.fifo, hkn]
          · rw [h1]; simp only [List.length_append, List.length_singleton, List.length_set]; omega
          · intro j st h
            simp only [hget] at h
            by_cases hj : j = k
            · subst hj
              rw [if_pos rfl] at h
              injection h with h
              subst h
              simp only [StageOk, h1, h2, h3, List.length_append, List.length_singleton]
              exact ⟨by omega, hst.2⟩
            · rw [if_neg hj] at h
              have := i.stage j st h
              cases st <;> simp only [StageOk, h1, h2, h3, List.length_append, List.length_singleton] at this ⊢
              · exact ⟨by omega, this.2⟩
              · exact ⟨by omega, this.2⟩
              · exact ⟨by omega, this.2⟩
              · omega
          · intro j u h
            rw [h2] at h
            simp only [hget]
            rw [h3]
            have hne : j ≠ k := by
              rintro rfl
              exact hst.2.1 (List.mem_map.2 ⟨_, h, rfl⟩)
            rw [if_neg hne]
            exact i.shaken j u h
          · intro j f h
            rw [h3] at h
            obtain ⟨x1, u, x2, x3⟩ := i.fate j f h
            simp only [hget]
            rw [h2]
            refine ⟨?_, u, x2, x3⟩
            have hne : j ≠ k := by
              rintro rfl
              rw [hk] at x1; cases x1
            rw [if_neg hne]; exact x1
          · rw [h3]; exact i.once
          · rw [h2]; exact i.unique
          · rw [ids_snoc]; simpa using i.ids
          · rw [h2]; exact i.crashed
          · intro h; exact i.undisturbed (undisturbed_snoc h)
      | shaken k =>
        cases hk : s.conns[k]? with
        | none =>
          have he : step verify a s (.poll (.shaken k)) = (.pending, s) := by simp [step, hr, hk]
          rw [he]; exact none_inv i _ _ (.inr rfl)
        | some st =>
          cases st with
          | ready url =>
            cases url with
            | none =>
              have he : step verify a s (.poll (.shaken k)) =
                  (.dropped k, { s with conns := s.conns.set k .over }) := by simp [step, hr, hk]
              rw [he]
              exact over_inv i hk _ _ _ rfl rfl rfl hr (.inl ⟨.dropped, rfl, rfl, hr⟩) rfl
            | some url =>
              have he : step verify a s (.poll (.shaken k)) =
                  admit verify a k url { s with conns := s.conns.set k .over } := by simp [step, hr, hk]
              rw [he]
              unfold admit
              cases hv : validate verify a url with
              | ok p => exact over_inv i hk _ _ _ rfl rfl rfl hr (.inl ⟨.admitted s.next p, rfl, hv, hr⟩) ⟨rfl, rfl⟩
              | refused e =>
                exact over_inv i hk _ _ _ rfl rfl rfl hr (.inl ⟨.refused, rfl, .inl ⟨e, hv⟩, hr⟩) rfl
              | tokenRequired => exact over_inv i hk _ _ _ rfl rfl rfl hr (.inl ⟨.refused, rfl, .inr hv, hr⟩) rfl
              | panic e => exact over_inv i hk _ _ _ rfl rfl rfl hr (.inr ⟨rfl, rfl, url, e, rfl, hv⟩) rfl
          | _ =>
            have he : step verify a s (.poll (.shaken k)) = (.pending, s) := by simp [step, hr, hk]
            rw [he]; exact none_inv i _ _ (.inr rfl)
      | signal =>
        by_cases hsg : s.signal = true
        · have he : step verify a s (.poll .signal) = (.stopped, { s with status := .stopped, closed := true }) := by
            simp [step, hr, hsg]
          rw [he]
          refine quiet_inv i _ _ ?_ ?_ rfl (by simp) rfl rfl ?_ ?_ ?_
          · rw [started_snoc]; simp
          · rw [shaken_snoc]; simp
          · intro h; rw [hr] at h; cases h
          · intro h; cases h
          · intro h
            have := (i.undisturbed (undisturbed_snoc h)).2.2
            rw [hsg] at this; cases this
        · have he : step verify a s (.poll .signal) = (.pending, s) := by simp [step, hr, hsg]
          rw [he]; exact none_inv i _ _ (.inr rfl)
    · have he : step verify a s (.poll b) = (.invalid, s) := by simp [step, hr]
      rw [he]; exact none_inv i _ _ (.inl rfl)

theorem inv_reach {tr : Trace} {s : State} (h : (machine verify a).Reach tr s) : Inv verify a tr s := by
  refine Machine.Reach.induct (M := machine verify a) (P := fun tr s => Inv verify a tr s) init_inv ?_ h
  intro tr s op _ ih
  exact step_inv ih op

/-! ## C88 -/

/-- **C88, fates**: a connection meets at most one fate, the one that the result of its own handshake and
its own URL deserve. -/
theorem c88_fates {tr : Trace} {s : State} (h : (machine verify a).Reach tr s) :
    ((fates tr).map (·.1)).Nodup ∧
    ∀ k f, (k, f) ∈ fates tr → ∃ url, (k, url) ∈ shaken tr ∧ Deserved verify a url f :=
  ⟨(inv_reach h).once, fun k f hm => ((inv_reach h).fate k f hm).2⟩

/-- **C88, ids**: the connections admitted are numbered from 0 without gaps. -/
theorem c88_ids {tr : Trace} {s : State} (h : (machine verify a).Reach tr s) :
    ids tr = List.range (ids tr).length := by
  have := (inv_reach h).ids
  rw [this, List.length_range]

/-- **C88, order**: handshakes begin in the order in which the connections arrived; while the relay runs,
the next one begins when the endpoint is polled. -/
theorem c88_order {tr : Trace} {s : State} (h : (machine verify a).Reach tr s) :
    started tr = List.range (started tr).length ∧
    (s.status = .running → (started tr).length < arrivals tr →
      (step verify a s (.poll .incoming)).1 = .started (started tr).length) := by
  have i := inv_reach h
  refine ⟨i.fifo, fun hr hlt => ?_⟩
  rw [← i.len] at hlt
  have hx := List.getElem?_eq_getElem hlt
  have hq : s.conns[(started tr).length] = .queued := by
    cases hy : s.conns[(started tr).length] <;> rw [hy] at hx
    · exact absurd (i.stage _ _ hx).1 (Nat.lt_irrefl _)
    · exact absurd (i.stage _ _ hx).1 (Nat.lt_irrefl _)
    · exact absurd (i.stage _ _ hx) (Nat.lt_irrefl _)
  cases hf : firstQueued s.conns with
  | none =>
    unfold firstQueued at hf
    rw [List.findIdx?_eq_none_iff] at hf
    have := hf _ (List.getElem_mem hlt)
    simp [hq] at this
  | some k =>
    obtain ⟨hk, hfirst⟩ := firstQueued_some hf
    have hst := i.stage k _ hk
    have : k = (started tr).length := by
      refine Nat.le_antisymm ?_ hst.1
      refine Nat.le_of_not_lt fun hl => ?_
      rw [hq] at hx
      exact hfirst _ hl hx
    simp [step, hr, hf, this]

/-- **C88, progress**: while the relay runs, a connection with a completed handshake meets its fate when
it is polled, no matter how many other handshakes are unfinished; unless its URL makes the check panic. -/
theorem c88_progress {tr : Trace} {s : State} (h : (machine verify a).Reach tr s) (hr : s.status = .running)
    (k : Nat) (url : Option Text) (hs : (k, url) ∈ shaken tr) (hf : k ∉ (fates tr).map (·.1)) :
    (∃ f, fates (tr ++ [(.poll (.shaken k), (step verify a s (.poll (.shaken k))).1)]) = fates tr ++ [(k, f)] ∧
      Deserved verify a url f) ∨
    (∃ u e, url = some u ∧ validate verify a u = .panic e) := by
  have i := inv_reach h
  rcases i.shaken k url hs with hk | ⟨-, h' | h'⟩
  · rw [fates_snoc]
    cases url with
    | none =>
      have he : step verify a s (.poll (.shaken k)) =
          (.dropped k, { s with conns := s.conns.set k .over }) := by simp [step, hr, hk]
      rw [he]
      exact .inl ⟨.dropped, rfl, rfl⟩
    | some url =>
      have he : step verify a s (.poll (.shaken k)) =
          admit verify a k url { s with conns := s.conns.set k .over } := by simp [step, hr, hk]
      rw [he]
      unfold admit
      cases hv : validate verify a url with
      | ok p => exact .inl ⟨.admitted s.next p, rfl, hv⟩
      | refused e => exact .inl ⟨.refused, rfl, .inl ⟨e, hv⟩⟩
      | tokenRequired => exact .inl ⟨.refused, rfl, .inr hv⟩
      | panic e => exact .inr ⟨url, e, rfl, hv⟩
  · exact absurd h' hf
  · rw [hr] at h'; cases h'

/-- **C88, survival, without the part that is false**: as long as nobody stops the relay and no URL
makes the check panic, it runs.  The full claim needs no condition on URLs; see `c88_crash`. -/
theorem c88_runs_partial {tr : Trace} {s : State} (h : (machine verify a).Reach tr s) (hu : Undisturbed tr)
    (hp : ∀ k url, (k, some url) ∈ shaken tr → ∀ e, validate verify a url ≠ .panic e) :
    s.status = .running := by
  have i := inv_reach h
  cases hs : s.status with
  | running => rfl
  | stopped => exact absurd hs (i.undisturbed hu).1
  | crashed =>
    obtain ⟨k, url, e, h1, h2⟩ := i.crashed hs
    exact absurd h2 (hp k url h1 e)

/-- A relay with a root key and without directories open to all runs until it is stopped. -/
theorem c88_runs_keyed {tr : Trace} {s : State} (h : (machine verify a).Reach tr s) (hu : Undisturbed tr)
    (ha : Auth.Table a) (hk : ∃ k, a.key = some k) (hd : ∀ dir, (dir, none) ∉ a.paths) : s.status = .running :=
  c88_runs_partial h hu fun _ _ _ e => Auth.c53_no_panic_partial ha hk hd e

/-- Once the loop has ended, nothing is admitted, refused or begun any more. -/
theorem after_end (ops : List Op) : ∀ s : State, s.status ≠ .running →
    ((machine verify a).runFrom s ops).2.status = s.status ∧
    fates ((machine verify a).runFrom s ops).1 = [] ∧ started ((machine verify a).runFrom s ops).1 = [] := by
  induction ops with
  | nil => intro s _; exact ⟨rfl, rfl, rfl⟩
  | cons op ops ih =>
    intro s hs
    have h1 : (step verify a s op).2.status = s.status := by
      cases op with
      | poll b => simp [step, hs]
      | arrive => simp only [step]; split <;> rfl
      | shake k url => simp only [step]; split <;> rfl
      | _ => rfl
    have h2 : fateOf (step verify a s op).1 = [] ∧ ∀ k, (step verify a s op).1 ≠ .started k := by
      cases op with
      | poll b => simp [step, hs, fateOf]
      | arrive => simp only [step]; split <;> simp [fateOf]
      | shake k url => simp only [step]; split <;> simp [fateOf]
      | _ => simp [step, fateOf]
    obtain ⟨x1, x2, x3⟩ := ih (step verify a s op).2 (by rw [h1]; exact hs)
    simp only [Machine.runFrom]
    refine ⟨by rw [x1, h1], ?_, ?_⟩
    · have := fates_snoc [] op (step verify a s op).1
      rw [h2.1] at this
      have e : ∀ (x : Op × Out) (l : Trace), fates (x :: l) = fates [x] ++ fates l := by
        intro x l; rw [← List.singleton_append]; simp only [fates, List.filterMap_append]
      rw [e, x2, List.append_nil]
      exact this
    · have e : ∀ (x : Op × Out) (l : Trace), started (x :: l) = started [x] ++ started l := by
        intro x l; rw [← List.singleton_append]; simp only [started, List.filterMap_append]
      rw [e, x3]
      rw [List.append_nil]
      have := started_snoc [] op (step verify a s op).1
      refine this.trans ?_
      split
      · rename_i k hk; exact absurd hk (h2.2 k)
      · rfl

/-- **C88 is violated**: a connection whose URL makes the check panic ends the relay, whoever else is
connecting: afterwards no connection is answered. -/
theorem c88_crash {tr : Trace} {s : State} (h : (machine verify a).Reach tr s) (hr : s.status = .running)
    (k : Nat) (url : Text) (hs : (k, some url) ∈ shaken tr) (hf : k ∉ (fates tr).map (·.1)) {e : Panic}
    (hv : validate verify a url = .panic e) (ops : List Op) :
    let t := (step verify a s (.poll (.shaken k))).2
    t.status = .crashed ∧ ((machine verify a).runFrom t ops).2.status = .crashed ∧
    fates ((machine verify a).runFrom t ops).1 = [] ∧ started ((machine verify a).runFrom t ops).1 = [] := by
  have i := inv_reach h
  have hk : s.conns[k]? = some (.ready (some url)) := by
    rcases i.shaken k _ hs with hk | ⟨-, h' | h'⟩
    · exact hk
    · exact absurd h' hf
    · rw [hr] at h'; cases h'
  have ht : (step verify a s (.poll (.shaken k))).2.status = .crashed := by
    simp [step, hr, hk, admit, hv]
  obtain ⟨x1, x2, x3⟩ := after_end (verify := verify) (a := a) ops (step verify a s (.poll (.shaken k))).2
    (by rw [ht]; simp)
  exact ⟨ht, by rw [x1, ht], x2, x3⟩

/-- A run: the second connection is ready first and is admitted; the third has a broken handshake; the
first one is admitted later. -/
example :
    ((machine (fun _ _ => .error .expired) ⟨none, []⟩).run [.arrive, .arrive, .poll .incoming, .arrive, .poll .incoming,
      .poll (.shaken 0), .shake 1 (some ['/', 'a']), .poll (.shaken 1), .poll .incoming, .shake 2 none,
      .poll (.shaken 2), .shake 0 (some ['/', 'b']), .poll (.shaken 0), .poll .signal]).1.map (·.2) =
    [.arrived 0, .arrived 1, .started 0, .arrived 2, .started 1, .pending, .ok,
      .admitted 1 0 { path := ['a'], publish := some [], subscribe := some [] }, .started 2, .ok, .dropped 2, .ok,
      .admitted 0 1 { path := ['b'], publish := some [], subscribe := some [] }, .pending] := by
  decide +kernel

/-- The hypotheses of `c88_crash` can be met: a relay without keys and the URL `/x.jwt`. -/
example (verify : Key → Text → Except Error Payload) :
    let r := (machine verify ⟨none, []⟩).run [.arrive, .poll .incoming, .shake 0 (some ['/', 'x', '.', 'j', 'w', 't'])]
    r.2.status = .running ∧ shaken r.1 = [(0, some ['/', 'x', '.', 'j', 'w', 't'])] ∧ fates r.1 = [] ∧
    validate verify ⟨none, []⟩ ['/', 'x', '.', 'j', 'w', 't'] = .panic .unwrapNone := ⟨rfl, rfl, rfl, rfl⟩

/-- The hypotheses of `c88_runs_keyed` can be met. -/
example (k : Key) : Auth.Table ⟨some k, []⟩ ∧ (∃ k', (⟨some k, []⟩ : Auth).key = some k') ∧
    ∀ dir, (dir, none) ∉ (⟨some k, []⟩ : Auth).paths :=
  ⟨by simp [Auth.Table], ⟨k, rfl⟩, by simp⟩

end Verif.Props.Main
