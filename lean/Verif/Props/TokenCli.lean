import Verif.Relay.TokenCli
import Verif.Props.Token

/-!
# C132: the program `moq-token`
-/

set_option autoImplicit false

namespace Verif.Props.TokenCli

open Verif Verif.Relay.Token Verif.Relay.TokenCli

/-! ## Specification -/

/-- The keys in the files, from the history: the last one generated or stored. -/
def see (f : Text → Option Key) : Op × Out → Text → Option Key
  | (.generate file alg id random _, .done) =>
    fun g => if g = file then some ⟨alg, [.sign, .verify], random (match alg with | .hs256 => 32 | .hs384 => 48 | .hs512 => 64), id⟩ else f g
  | (.store file k, _) => fun g => if g = file then k else f g
  | _ => f

def keys (tr : Trace) : Text → Option Key := tr.foldl see fun _ => none

theorem keys_snoc (tr : Trace) (e : Op × Out) : keys (tr ++ [e]) = see (keys tr) e := by simp [keys]

/-- The number that a text of decimal digits stands for. -/
def Decimal (s : Text) (n : Nat) : Prop :=
  s ≠ [] ∧ (∀ c ∈ s, '0' ≤ c ∧ c ≤ '9') ∧ n = s.foldl (fun n c => 10 * n + (c.toNat - '0'.toNat)) 0

/-- A text that is the number of a second, perhaps with a sign. -/
def Stamp (s : Text) (n : Nat) : Prop :=
  n < 2 ^ 63 ∧ (Decimal s n ∨ (∃ t, s = '+' :: t ∧ Decimal t n) ∨ (n = 0 ∧ ∃ t, s = '-' :: t ∧ Decimal t n))

/-- The payload that the arguments stand for. -/
def Means (a : Args) (p : Payload) : Prop :=
  p.path = a.path ∧ p.publish = a.publish ∧ p.publishForce = a.publishForce ∧ p.subscribe = a.subscribe ∧
    (match a.expires, p.expires with
      | none, none => True
      | some s, some t => ∃ n : Nat, Stamp s n ∧ t = n * 1000000000
      | _, _ => False) ∧
    (match a.issued, p.issued with
      | none, none => True
      | some s, some t => ∃ n : Nat, Stamp s n ∧ t = n * 1000000000
      | _, _ => False)

variable {J : Jwt} {tr : Trace} {s : State}

/-! ## Lemmas -/

theorem keys_reach (h : (machine J).Reach tr s) : keys tr = s.files := by
  refine Machine.Reach.induct (M := machine J) (P := fun tr s => keys tr = s.files) rfl (fun tr s op _ ih => ?_) h
  rw [keys_snoc, ih]
  cases op with
  | generate file alg id random w =>
    cases w
    · rfl
    · simp only [step, if_true, see, put, Key.generate]
      cases alg <;> rfl
  | store file k => rfl
  | sign file a =>
    simp only [step]
    split
    · split
      · rfl
      · split <;> rfl
    · rfl
  | verify file now input =>
    simp only [step]
    split
    · rfl
    · split <;> rfl

theorem digits_iff (s : Text) (m n : Nat) :
    digits m s = some n ↔ (∀ c ∈ s, '0' ≤ c ∧ c ≤ '9') ∧ n = s.foldl (fun n c => 10 * n + (c.toNat - '0'.toNat)) m := by
  induction s generalizing m with
  | nil => simp [digits, eq_comm]
  | cons c cs ih =>
    simp only [digits]
    split
    · rename_i hc
      rw [ih]
      simp only [List.forall_mem_cons, List.foldl_cons]
      exact ⟨fun h => ⟨⟨hc, h.1⟩, h.2⟩, fun h => ⟨h.1.2, h.2⟩⟩
    · rename_i hc
      simp only [List.forall_mem_cons]
      exact ⟨(nofun), fun h => absurd h.1.1 hc⟩

theorem digits_decimal {s : Text} (hs : s ≠ []) (n : Nat) : digits 0 s = some n ↔ Decimal s n := by
  rw [digits_iff]
  exact ⟨fun h => ⟨hs, h.1, h.2⟩, fun h => ⟨h.2.1, h.2.2⟩⟩

theorem timestamp_iff (s : Text) (t : Time) : timestamp s = some t ↔ ∃ n : Nat, Stamp s n ∧ t = n * 1000000000 := by
  have fin : ∀ o : Option Int,
      (match o.bind fun v => if -9223372036854775808 ≤ v ∧ v < 9223372036854775808 then some v else none with
        | none => none
        | some v => if v < 0 then none else some (v * second)) = some t ↔
      ∃ n : Nat, n < 2 ^ 63 ∧ o = some (n : Int) ∧ t = n * 1000000000 := by
    intro o
    cases o with
    | none => simp
    | some v =>
      simp only [Option.bind_some]
      split
      · rename_i hx
        split at hx
        · cases hx
        · rename_i hr
          refine ⟨(nofun), ?_⟩
          rintro ⟨n, hn, hv, -⟩
          cases hv
          omega
      · rename_i w hx
        split at hx
        · rename_i hr
          cases hx
          split
          · refine ⟨(nofun), ?_⟩
            rintro ⟨n, hn, hv, -⟩
            cases hv
            omega
          · constructor
            · intro h
              cases h
              exact ⟨v.toNat, by omega, by rw [Int.toNat_of_nonneg (by omega)], by rw [Int.toNat_of_nonneg (by omega)]; rfl⟩
            · rintro ⟨n, -, hv, rfl⟩
              cases hv
              rfl
        · cases hx
  unfold timestamp parseI64
  refine (fin (signed s)).trans ?_
  refine exists_congr fun n => ?_
  rw [Stamp, and_assoc]
  refine and_congr_right fun hn => and_congr_left fun _ => ?_
  have bad : ∀ c u, (¬ ('0' ≤ c ∧ c ≤ '9')) → ¬ Decimal (c :: u) n := fun c u hc h => hc (h.2.1 c List.mem_cons_self)
  have map_pos : ∀ o : Option Nat, (o.map fun n : Nat => (n : Int)) = some (n : Int) ↔ o = some n := by
    intro o
    cases o with
    | none => simp
    | some m =>
      simp only [Option.map_some, Option.some.injEq]
      omega
  unfold signed
  split
  · simp [Decimal]
  · rename_i cs
    have hb := bad '-' cs (by decide)
    by_cases hc : cs = []
    · subst hc
      simp [Decimal]
    · rw [if_neg hc]
      constructor
      · intro h
        obtain ⟨m, hm, he⟩ := Option.map_eq_some_iff.1 h
        have : m = 0 ∧ n = 0 := by omega
        obtain ⟨rfl, rfl⟩ := this
        exact .inr (.inr ⟨rfl, cs, rfl, (digits_decimal hc 0).1 hm⟩)
      · rintro (h | ⟨u, hu, -⟩ | ⟨rfl, u, hu, h⟩)
        · exact absurd h hb
        · cases hu
        · cases hu
          rw [(digits_decimal hc 0).2 h]
          rfl
  · rename_i cs
    have hb := bad '+' cs (by decide)
    by_cases hc : cs = []
    · subst hc
      simp [Decimal]
    · rw [if_neg hc, map_pos, digits_decimal hc]
      constructor
      · exact fun h => .inr (.inl ⟨cs, rfl, h⟩)
      · rintro (h | ⟨u, hu, h⟩ | ⟨rfl, u, hu, -⟩)
        · exact absurd h hb
        · cases hu
          exact h
        · cases hu
  · rename_i h0 h1 h2
    rw [map_pos, digits_decimal h0]
    constructor
    · exact .inl
    · rintro (h | ⟨u, hu, -⟩ | ⟨-, u, hu, -⟩)
      · exact h
      · exact absurd hu (h2 u)
      · exact absurd hu (h1 u)

theorem timeArg_iff (o : Option Text) (r : Option Time) :
    timeArg o = some r ↔
      match o, r with
      | none, none => True
      | some s, some t => ∃ n : Nat, Stamp s n ∧ t = n * 1000000000
      | _, _ => False := by
  cases o with
  | none => cases r <;> simp [timeArg]
  | some s =>
    cases r with
    | none => simp [timeArg]
    | some t => simp [timeArg, timestamp_iff]

/-! ## C132 -/

/-- Signing prints the token of the payload that the arguments stand for, signed with the key of the file, and the end of the line;
without a key that may sign, or with times that are no numbers of seconds, it fails. -/
theorem c132_sign (h : (machine J).Reach tr s) (file : Text) (a : Args) (out : Text) :
    (step J s (.sign file a)).1 = .text out ↔
      ∃ k p token, keys tr file = some k ∧ Means a p ∧ k.sign J p = .ok token ∧ out = token ++ ['\n'] := by
  rw [keys_reach h]
  constructor
  · intro ho
    simp only [step] at ho
    split at ho
    · rename_i e i he hi
      split at ho
      · cases ho
      · rename_i k hk
        split at ho
        · cases ho
        · rename_i token ht
          cases ho
          exact ⟨k, _, token, hk, ⟨rfl, rfl, rfl, rfl, (timeArg_iff _ _).1 he, (timeArg_iff _ _).1 hi⟩, ht, rfl⟩
    · cases ho
  · rintro ⟨k, ⟨p1, p2, p3, p4, p5, p6⟩, token, hk, ⟨rfl, rfl, rfl, rfl, he, hi⟩, ht, rfl⟩
    have he := (timeArg_iff _ _).2 he
    have hi := (timeArg_iff _ _).2 hi
    simp only [step, he, hi, hk, ht]

/-- Signing prints a token or fails, and neither signing nor verifying changes a file. -/
theorem c132_kept (s : State) (file : Text) :
    (∀ a, ((∃ out, (step J s (.sign file a)).1 = .text out) ∨ (step J s (.sign file a)).1 = .fail) ∧ (step J s (.sign file a)).2 = s) ∧
      ∀ now input, ((∃ p, (step J s (.verify file now input)).1 = .payload p) ∨ (step J s (.verify file now input)).1 = .fail) ∧
        (step J s (.verify file now input)).2 = s := by
  constructor
  · intro a
    simp only [step]
    split
    · split
      · exact ⟨.inr rfl, rfl⟩
      · split
        · exact ⟨.inr rfl, rfl⟩
        · exact ⟨.inl ⟨_, rfl⟩, rfl⟩
    · exact ⟨.inr rfl, rfl⟩
  · intro now input
    simp only [step]
    split
    · exact ⟨.inr rfl, rfl⟩
    · split
      · exact ⟨.inr rfl, rfl⟩
      · exact ⟨.inl ⟨_, rfl⟩, rfl⟩

theorem whole_rounded {a : Args} {p : Payload} (hm : Means a p) : Token.rounded p = p := by
  obtain ⟨-, -, -, -, h5, h6⟩ := hm
  refine Token.c57_same (fun t ht => ?_) (fun t ht => ?_)
  · rw [ht] at h5
    split at h5
    · rename_i hx
      cases hx
    · rename_i hx
      cases hx
      obtain ⟨n, -, rfl⟩ := h5
      exact ⟨n, rfl⟩
    · exact h5.elim
  · rw [ht] at h6
    split at h6
    · rename_i hx
      cases hx
    · rename_i hx
      cases hx
      obtain ⟨n, -, rfl⟩ := h6
      exact ⟨n, rfl⟩
    · exact h6.elim

/-- What is printed, without the end of the line, is verified with the same file, until a minute after it expires, and the payload comes
back as it was. -/
theorem c132_back_partial (hJ : J.Sound) (h : (machine J).Reach tr s) (file : Text) (a : Args) (out : Text)
    (ho : (step J s (.sign file a)).1 = .text out) (hv : ∀ k, keys tr file = some k → KeyOperation.verify ∈ k.operations) (now : Int)
    (hn : ∀ e, a.expires = some e → ∀ n : Nat, Stamp e n → now ≤ n + 60) :
    ∃ p, Means a p ∧ (step J s (.verify file now out.dropLast)).1 = .payload p := by
  obtain ⟨k, p, token, hk, hm, ht, rfl⟩ := (c132_sign h file a out).1 ho
  refine ⟨p, hm, ?_⟩
  have hr := Token.c57_roundtrip hJ ht rfl rfl (hv k hk) (now := now) (fun t ht => by
    have h5 := hm.2.2.2.2.1
    rw [ht] at h5
    split at h5
    · rename_i hx
      cases hx
    · rename_i e _ hy hx
      cases hx
      obtain ⟨n, hs, rfl⟩ := h5
      have := hn e hy n hs
      rw [show ((n : Int) * 1000000000) = n * second from rfl, Token.seconds_whole]
      exact this
    · exact h5.elim)
  rw [keys_reach h] at hk
  simp only [step, hk, List.dropLast_concat, hr, whole_rounded hm]

/-- With a key that was generated, what is signed is verified, without the end of the line. -/
theorem c132_generated_partial (hJ : J.Sound) (h : (machine J).Reach tr s) (file : Text) (alg : Algorithm) (id : Option Text)
    (random : Nat → Bytes) (a : Args) (p : Payload) (hm : Means a p) (now : Int)
    (hn : ∀ e, a.expires = some e → ∀ n : Nat, Stamp e n → now ≤ n + 60) :
    ∃ out q, (step J (step J s (.generate file alg id random true)).2 (.sign file a)).1 = .text out ∧ Means a q ∧
      (step J (step J s (.generate file alg id random true)).2 (.verify file now out.dropLast)).1 = .payload q := by
  have h' := Machine.Reach.step (M := machine J) (.generate file alg id random true) h
  have hk : keys (tr ++ [(.generate file alg id random true, Out.done)]) file = some (Key.generate random alg id) := by
    rw [keys_snoc]
    simp only [see, if_true, Key.generate]
    cases alg <;> rfl
  obtain ⟨token, ht⟩ := (Token.c57_sign (J := J) (k := Key.generate random alg id) (p := p)).2 (by simp [Key.generate])
  have ho := (c132_sign h' file a _).2 ⟨_, p, token, hk, hm, ht, rfl⟩
  obtain ⟨q, hq, hv⟩ := c132_back_partial hJ h' file a _ ho (fun k hx => by
    have hx : keys (tr ++ [(.generate file alg id random true, Out.done)]) file = some k := hx
    rw [hk] at hx
    cases hx
    simp [Key.generate]) now hn
  exact ⟨_, q, ho, hq, hv⟩

/-- What `sign` prints is never accepted by `verify` as it is, at any time and with any key: the end of the line belongs to the
signature.  Segments are in base 64 and have no ends of lines. -/
theorem c132_pipe (hl : ∀ alg secret m, '\n' ∉ J.mac alg secret m) (h : (machine J).Reach tr s) (file : Text) (a : Args) (out : Text)
    (ho : (step J s (.sign file a)).1 = .text out) (s' : State) (file' : Text) (now : Int) :
    (step J s' (.verify file' now out)).1 = .fail := by
  obtain ⟨k, p, token, -, -, -, rfl⟩ := (c132_sign h file a out).1 ho
  simp only [step]
  split
  · rfl
  · rename_i k' _
    split
    · rfl
    · rename_i q hq
      obtain ⟨-, hd, cl, -, -, ht, -⟩ := Token.c57_verify.1 hq
      exfalso
      have hx := congrArg List.getLast? ht
      rw [List.getLast?_concat] at hx
      have hmac := hl k'.algorithm k'.secret (hd ++ '.' :: cl)
      generalize J.mac k'.algorithm k'.secret (hd ++ '.' :: cl) = m at hx hmac
      cases m using List.reverseRecOn with
      | nil =>
        rw [show hd ++ '.' :: cl ++ ['.'] = (hd ++ '.' :: cl) ++ ['.'] from rfl, List.getLast?_concat] at hx
        cases hx
      | append_singleton m c _ =>
        rw [show hd ++ '.' :: cl ++ '.' :: (m ++ [c]) = (hd ++ '.' :: cl ++ '.' :: m) ++ [c] by simp, List.getLast?_concat] at hx
        cases hx
        exact hmac (by simp)

/-- Verifying takes the key of the file, the time and the whole input. -/
theorem c132_verify (h : (machine J).Reach tr s) (file : Text) (now : Int) (input : Text) (p : Payload) :
    (step J s (.verify file now input)).1 = .payload p ↔ ∃ k, keys tr file = some k ∧ k.check J now input = .ok p := by
  rw [keys_reach h]
  simp only [step]
  split
  · rename_i hk
    simp [hk]
  · rename_i k hk
    split
    · rename_i e he
      simp [hk, he]
    · rename_i q hq
      simp [hk, hq]

/-- A minute after it has expired a token is refused, with and without the end of the line. -/
theorem c132_expired (hJ : J.Sound) (hl : ∀ alg secret m, '\n' ∉ J.mac alg secret m) (h : (machine J).Reach tr s) (file : Text) (a : Args)
    (out : Text) (ho : (step J s (.sign file a)).1 = .text out) (e : Text) (he : a.expires = some e) (n : Nat) (hs : Stamp e n)
    (now : Int) (hn : (n : Int) + 60 < now) (s' : State) (file' : Text) :
    (step J s' (.verify file' now out)).1 = .fail ∧ (step J s' (.verify file' now out.dropLast)).1 = .fail := by
  refine ⟨c132_pipe hl h file a out ho s' file' now, ?_⟩
  obtain ⟨k, p, token, -, hm, ht, rfl⟩ := (c132_sign h file a out).1 ho
  have hp : p.expires = some (n * second) := by
    have h5 := hm.2.2.2.2.1
    rw [he] at h5
    split at h5
    · rename_i hx _
      cases hx
    · rename_i e' t hx hy
      cases hx
      obtain ⟨m, hm', rfl⟩ := h5
      have h1 := (timestamp_iff e (m * 1000000000)).2 ⟨m, hm', rfl⟩
      have h2 := (timestamp_iff e (n * 1000000000)).2 ⟨n, hs, rfl⟩
      rw [h1] at h2
      rw [hy]
      exact h2
    · exact h5.elim
  rcases ((c132_kept (J := J) s' file').2 now (token ++ ['\n']).dropLast).1 with ⟨q, hq⟩ | hf
  · exfalso
    simp only [step, List.dropLast_concat] at hq
    split at hq
    · cases hq
    · split at hq
      · cases hq
      · rename_i hc
        exact Token.c57_expired hJ ht hp (by rw [Token.seconds_whole]; exact hn) hc
  · exact hf

/-! Concrete cases. -/

/-- The arguments of the examples: a token that expires after 1000 seconds. -/
def sample : Args := ⟨"a".toList, none, some "b".toList, none, some "1000".toList, none⟩

theorem sample_stamp : Stamp "1000".toList 1000 := by
  refine ⟨by decide, .inl ⟨by decide, ?_, by decide⟩⟩
  decide

example : Means sample ⟨"a".toList, none, some "b".toList, none, some (1000 * 1000000000), none⟩ :=
  ⟨rfl, rfl, rfl, rfl, ⟨1000, sample_stamp, rfl⟩, trivial⟩

/-- With a sound library, a generated key signs and verifies the sample. -/
example : ∃ J : Jwt, J.Sound ∧ ∃ tr s, (machine J).Reach tr s ∧ ∃ out, (step J s (.sign [] sample)).1 = .text out ∧
    ∃ p, Means sample p ∧ (step J s (.verify [] 1 out.dropLast)).1 = .payload p := by
  obtain ⟨J, hJ⟩ := Token.sound_exists
  refine ⟨J, hJ, _, _, (machine J).reach_run [.generate [] .hs384 none (fun n => List.replicate n 3) true], ?_⟩
  obtain ⟨out, q, ho, hq, hv⟩ := c132_generated_partial hJ (Machine.Reach.init (M := machine J)) [] .hs384 none (fun n => List.replicate n 3) sample
    ⟨"a".toList, none, some "b".toList, none, some (1000 * 1000000000), none⟩
    ⟨rfl, rfl, rfl, rfl, ⟨1000, sample_stamp, rfl⟩, trivial⟩ 1 (fun e _ n _ => by omega)
  exact ⟨out, ho, q, hq, hv⟩

/-- The library of the examples writes no ends of lines, and a token is made. -/
example : (∀ alg secret m, '\n' ∉ Token.toy.mac alg secret m) ∧
    ∃ tr s, (machine Token.toy).Reach tr s ∧ ∃ out, (step Token.toy s (.sign [] sample)).1 = .text out := by
  refine ⟨fun _ _ _ hm => absurd (List.eq_of_mem_replicate hm) (by decide), _, _,
    (machine Token.toy).reach_run [.store [] (some Token.toyKey)], "h.a.mmmmm\n".toList, ?_⟩
  decide +kernel

end Verif.Props.TokenCli
