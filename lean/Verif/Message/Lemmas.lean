import Verif.Coding.Codec
import Verif.Message.Model

/-! # Message codec lemmas -/

namespace Verif.Message

open Verif Verif.Coding

/-! ## Announce -/

theorem rt_announceStatus : RoundTrips encodeAnnounceStatus decodeAnnounceStatus := by
  intro a bs rest hw
  rw [decodeAnnounceStatus, Dec.bind'_eq]
  cases a
  · rw [Dec.bind_ok (rt_u8 0 bs rest hw)]; rfl
  · rw [Dec.bind_ok (rt_u8 1 bs rest hw)]; rfl

theorem good_announceStatus : Good decodeAnnounceStatus := by
  refine good_bind' good_u8 fun v => ?_
  split
  · exact good_pure' _
  · split
    · exact good_pure' _
    · exact good_fail _

theorem rt_announce : RoundTrips encodeAnnounce decodeAnnounce := by
  intro a bs rest hw
  rw [decodeAnnounce, Dec.bind'_eq]
  cases a with
  | active s =>
    rw [encodeAnnounce] at hw
    obtain ⟨b1, b2, h1, h2, rfl⟩ := wire_seq_ok.1 hw
    rw [List.append_assoc, Dec.bind_ok (rt_announceStatus _ b1 _ h1)]
    simp only [Dec.bind'_eq]
    rw [Dec.bind_ok (rt_string _ b2 _ h2)]
    rfl
  | ended s =>
    rw [encodeAnnounce] at hw
    obtain ⟨b1, b2, h1, h2, rfl⟩ := wire_seq_ok.1 hw
    rw [List.append_assoc, Dec.bind_ok (rt_announceStatus _ b1 _ h1)]
    simp only [Dec.bind'_eq]
    rw [Dec.bind_ok (rt_string _ b2 _ h2)]
    rfl

theorem good_announce : Good decodeAnnounce := by
  refine good_bind' good_announceStatus fun v => ?_
  cases v
  · exact good_bind' good_string fun _ => good_pure' _
  · exact good_bind' good_string fun _ => good_pure' _

theorem rt_announceRequest : RoundTrips encodeAnnounceRequest decodeAnnounceRequest := by
  intro a bs rest hw
  rw [decodeAnnounceRequest, Dec.bind'_eq, Dec.bind_ok (rt_string _ bs rest hw)]
  rfl

theorem good_announceRequest : Good decodeAnnounceRequest :=
  good_bind' good_string fun _ => good_pure' _

/-! ## Frame, Group, SessionInfo -/

theorem rt_frame : RoundTrips encodeFrame decodeFrame := by
  intro a bs rest hw
  rw [decodeFrame, Dec.bind'_eq, Dec.bind_ok (rt_u64 _ bs rest hw)]
  rfl

theorem good_frame : Good decodeFrame := good_bind' good_u64 fun _ => good_pure' _

theorem rt_group : RoundTrips encodeGroup decodeGroup := by
  intro a bs rest hw
  obtain ⟨b1, b2, h1, h2, rfl⟩ := wire_seq_ok.1 hw
  rw [List.append_assoc, decodeGroup, Dec.bind'_eq, Dec.bind_ok (rt_u64 _ b1 _ h1),
    Dec.bind'_eq, Dec.bind_ok (rt_u64 _ b2 _ h2)]
  rfl

theorem good_group : Good decodeGroup :=
  good_bind' good_u64 fun _ => good_bind' good_u64 fun _ => good_pure' _

theorem decodeSessionInfo_encode (m : SessionInfo) (bs rest : Bytes)
    (hw : wire (encodeSessionInfo m) = .ok bs) :
    decodeSessionInfo (bs ++ rest) =
      .ok (if m.bitrate = some 0 then ⟨none⟩ else m, rest) := by
  obtain ⟨b⟩ := m
  rw [decodeSessionInfo, Dec.bind'_eq, Dec.bind_ok (rt_u64 _ bs rest hw)]
  cases b with
  | none => rfl
  | some b => cases b <;> rfl

theorem good_sessionInfo : Good decodeSessionInfo := by
  refine good_bind' good_u64 fun v => ?_
  cases v <;> exact good_pure' _

/-! ## Versions -/

theorem rt_versions : RoundTrips encodeVersions decodeVersions :=
  rt_vec (enc := encodeVersion) (dec := decodeVersion) rt_u64

theorem good_versions : Good decodeVersions :=
  good_vec (dec := decodeVersion) good_u64

/-! ## Extensions -/

theorem lookup_isSome (m : Extensions) (k : Nat) :
    (Extensions.lookup m k).isSome = true ↔ k ∈ m.map (·.1) := by
  simp [Extensions.lookup]

/-- Decoding the parameters `ps` with distinct new kinds appends them to the map. -/
theorem extLoop_items (ps : Extensions) (n : Nat) (map : Extensions) (bs rest : Bytes)
    (hnd : ((map ++ ps).map (·.1)).Nodup) (hw : wire (encodeItems encodeParam ps) = .ok bs) :
    decodeExtensionsLoop (ps.length + n) map (bs ++ rest) =
      decodeExtensionsLoop n (map ++ ps) rest := by
  induction ps generalizing map bs with
  | nil =>
    simp [encodeItems, wire] at hw
    subst hw
    simp
  | cons p ps ih =>
    obtain ⟨b1, b2, h1, h2, rfl⟩ := wire_seq_ok.1 hw
    obtain ⟨c1, c2, g1, g2, rfl⟩ := wire_seq_ok.1 h1
    have e : (p :: ps).length + n = (ps.length + n) + 1 := by simp; omega
    rw [e, decodeExtensionsLoop, List.append_assoc, List.append_assoc,
      Dec.bind_ok (rt_u64 _ c1 _ g1)]
    have hnew : ¬ ((Extensions.lookup map p.1).isSome = true) := by
      rw [lookup_isSome]
      intro hmem
      rw [List.map_append, List.nodup_append] at hnd
      exact hnd.2.2 _ hmem _ (by simp) rfl
    rw [if_neg hnew, Dec.bind_ok (rt_vec rt_u8 _ c2 _ g2), ih (map ++ [p]) b2 _ h2]
    · simp
    · simpa using hnd

theorem extLoop_dup (ps : Extensions) (n : Nat) (k : Nat) (bs kb rest : Bytes)
    (hnd : (ps.map (·.1)).Nodup) (hk : k ∈ ps.map (·.1))
    (hw : wire (encodeItems encodeParam ps) = .ok bs) (hkb : wire (encodeU64 k) = .ok kb) :
    decodeExtensionsLoop (ps.length + (n + 1)) [] (bs ++ (kb ++ rest)) =
      .error .duplicateParameter := by
  rw [extLoop_items ps (n + 1) [] bs _ (by simpa using hnd) hw, decodeExtensionsLoop,
    Dec.bind_ok (rt_u64 _ kb _ hkb), List.nil_append, if_pos ((lookup_isSome _ _).2 hk)]
  rfl

theorem extLoop_not_nodup (ps map : Extensions) (bs rest : Bytes)
    (hm : (map.map (·.1)).Nodup) (hnd : ¬ ((map ++ ps).map (·.1)).Nodup)
    (hw : wire (encodeItems encodeParam ps) = .ok bs) :
    decodeExtensionsLoop ps.length map (bs ++ rest) = .error .duplicateParameter := by
  induction ps generalizing map bs with
  | nil => rw [List.append_nil] at hnd; exact absurd hm hnd
  | cons p ps ih =>
    obtain ⟨b1, b2, h1, h2, rfl⟩ := wire_seq_ok.1 hw
    obtain ⟨c1, c2, g1, g2, rfl⟩ := wire_seq_ok.1 h1
    rw [List.length_cons, decodeExtensionsLoop, List.append_assoc, List.append_assoc,
      Dec.bind_ok (rt_u64 _ c1 _ g1)]
    by_cases hk : p.1 ∈ map.map (·.1)
    · rw [if_pos ((lookup_isSome _ _).2 hk)]; rfl
    · rw [if_neg (fun h => hk ((lookup_isSome _ _).1 h)), Dec.bind_ok (rt_vec rt_u8 _ c2 _ g2)]
      apply ih (map ++ [p]) b2 _ _ h2
      · rw [List.map_append, List.nodup_append]
        refine ⟨hm, by simp, ?_⟩
        intro a ha b hb
        simp at hb
        rintro rfl
        exact hk (hb ▸ ha)
      · simpa using hnd

theorem lookup_eq_some_iff {m : Extensions} (hm : (m.map (·.1)).Nodup) (k : Nat) (v : Bytes) :
    Extensions.lookup m k = some v ↔ (k, v) ∈ m := by
  induction m with
  | nil => simp [Extensions.lookup]
  | cons p m ih =>
    rw [List.map_cons, List.nodup_cons] at hm
    have ih := ih hm.2
    unfold Extensions.lookup at ih ⊢
    obtain ⟨a, b⟩ := p
    by_cases hk : a = k
    · subst hk
      simp only [List.find?_cons, beq_self_eq_true, Option.map_some, Option.some.injEq,
        List.mem_cons, Prod.mk.injEq, true_and]
      constructor
      · exact fun h => .inl h.symm
      · rintro (h | h)
        · exact h.symm
        · exact absurd (List.mem_map.2 ⟨_, h, rfl⟩) hm.1
    · have : (a == k) = false := by simpa using hk
      simp only [List.find?_cons, this, List.mem_cons, Prod.mk.injEq, ih]
      constructor
      · exact .inr
      · rintro (h | h)
        · exact absurd h.1.symm hk
        · exact h

/-- The parameter kinds are pairwise different, as in a hash map. -/
def Extensions.Distinct (m : Extensions) : Prop := (m.map (·.1)).Nodup

theorem rt_extensions : RoundTripsOn Extensions.Distinct encodeExtensions decodeExtensions := by
  intro m bs rest hm hw
  obtain ⟨b1, b2, h1, h2, rfl⟩ := wire_seq_ok.1 hw
  rw [List.append_assoc, decodeExtensions, Dec.bind_ok (rt_u64 _ b1 _ h1)]
  have := extLoop_items m 0 [] b2 rest (by rw [List.nil_append]; exact hm) h2
  rw [Nat.add_zero] at this
  rw [this]
  rfl

theorem good_extLoop (n : Nat) (map : Extensions) : Good (decodeExtensionsLoop n map) := by
  induction n generalizing map with
  | zero => exact good_pure _
  | succ n ih =>
    refine good_bind good_u64 fun k => ?_
    split
    · exact good_fail _
    · exact good_bind (good_vec good_u8) fun d => ih _

theorem good_extensions : Good decodeExtensions :=
  good_bind good_u64 fun n => good_extLoop n []

theorem distinct_of_extLoop (n : Nat) (map : Extensions) (hm : map.Distinct)
    (bs : Bytes) (m : Extensions) (rest : Bytes)
    (h : decodeExtensionsLoop n map bs = .ok (m, rest)) : m.Distinct := by
  induction n generalizing map bs with
  | zero =>
    simp only [decodeExtensionsLoop, Dec.pure_apply, Except.ok.injEq, Prod.mk.injEq] at h
    rw [← h.1]; exact hm
  | succ n ih =>
    rw [decodeExtensionsLoop] at h
    cases h1 : decodeU64 bs with
    | error e => rw [Dec.bind_error h1] at h; cases h
    | ok p =>
      obtain ⟨k, r⟩ := p
      rw [Dec.bind_ok h1] at h
      split at h
      · cases h
      · rename_i hk
        rw [lookup_isSome] at hk
        cases h2 : decodeVec decodeU8 r with
        | error e => rw [Dec.bind_error h2] at h; cases h
        | ok p =>
          obtain ⟨d, r2⟩ := p
          rw [Dec.bind_ok h2] at h
          refine ih (map ++ [(k, d)]) ?_ r2 h
          unfold Extensions.Distinct at hm ⊢
          rw [List.map_append, List.nodup_append]
          refine ⟨hm, by simp, ?_⟩
          intro a ha b hb
          simp at hb
          rintro rfl
          exact hk (hb ▸ ha)

/-! ## Setup -/

theorem rt_clientSetup :
    RoundTripsOn (fun m : ClientSetup => m.extensions.Distinct) encodeClientSetup
      decodeClientSetup := by
  intro m bs rest hm hw
  obtain ⟨b1, b2, h1, h2, rfl⟩ := wire_seq_ok.1 hw
  rw [List.append_assoc, decodeClientSetup, Dec.bind'_eq, Dec.bind_ok (rt_versions _ b1 _ h1),
    Dec.bind'_eq, Dec.bind_ok (rt_extensions _ b2 _ hm h2)]
  rfl

theorem good_clientSetup : Good decodeClientSetup :=
  good_bind' good_versions fun _ => good_bind' good_extensions fun _ => good_pure' _

theorem rt_serverSetup :
    RoundTripsOn (fun m : ServerSetup => m.extensions.Distinct) encodeServerSetup
      decodeServerSetup := by
  intro m bs rest hm hw
  obtain ⟨b1, b2, h1, h2, rfl⟩ := wire_seq_ok.1 hw
  rw [List.append_assoc, decodeServerSetup, Dec.bind'_eq,
    Dec.bind_ok (d := decodeVersion) (rt_u64 _ b1 _ h1),
    Dec.bind'_eq, Dec.bind_ok (rt_extensions _ b2 _ hm h2)]
  rfl

theorem good_serverSetup : Good decodeServerSetup :=
  good_bind' (d := decodeVersion) good_u64 fun _ =>
    good_bind' good_extensions fun _ => good_pure' _

/-! ## Stream types -/

theorem rt_controlType : RoundTrips encodeControlType decodeControlType := by
  intro t bs rest hw
  rw [decodeControlType, Dec.bind'_eq]
  cases t
  · rw [Dec.bind_ok (rt_u64 0 bs rest hw)]; rfl
  · rw [Dec.bind_ok (rt_u64 1 bs rest hw)]; rfl
  · rw [Dec.bind_ok (rt_u64 2 bs rest hw)]; rfl

theorem good_controlType : Good decodeControlType := by
  refine good_bind' good_u64 fun v => ?_
  split
  · exact good_pure' _
  · exact good_pure' _
  · exact good_pure' _
  · exact good_fail _

theorem rt_dataType : RoundTrips encodeDataType decodeDataType := by
  intro t bs rest hw
  rw [decodeDataType, Dec.bind'_eq]
  cases t
  rw [Dec.bind_ok (rt_u64 0 bs rest hw)]; rfl

theorem good_dataType : Good decodeDataType := by
  refine good_bind' good_u64 fun v => ?_
  split
  · exact good_pure' _
  · exact good_fail _

/-! ## Subscribe -/

theorem rt_subscribe : RoundTrips encodeSubscribe decodeSubscribe := by
  intro m bs rest hw
  obtain ⟨b1, _, h1, hw1, rfl⟩ := wire_seq_ok.1 hw
  obtain ⟨b2, _, h2, hw2, rfl⟩ := wire_seq_ok.1 hw1
  obtain ⟨b3, b4, h3, h4, rfl⟩ := wire_seq_ok.1 hw2
  rw [List.append_assoc, List.append_assoc, List.append_assoc, decodeSubscribe,
    Dec.bind'_eq, Dec.bind_ok (rt_u64 _ b1 _ h1), Dec.bind'_eq,
    Dec.bind_ok (rt_string _ b2 _ h2), Dec.bind'_eq,
    Dec.bind_ok (rt_string _ b3 _ h3), Dec.bind'_eq, Dec.bind_ok (rt_u8 _ b4 _ h4)]
  rfl

theorem good_subscribe : Good decodeSubscribe :=
  good_bind' good_u64 fun _ => good_bind' good_string fun _ => good_bind' good_string fun _ =>
    good_bind' good_u8 fun _ => good_pure' _

theorem rt_subscribeOk : RoundTrips encodeSubscribeOk decodeSubscribeOk := by
  intro m bs rest hw
  rw [decodeSubscribeOk, Dec.bind'_eq, Dec.bind_ok (rt_u8 _ bs rest hw)]
  rfl

theorem good_subscribeOk : Good decodeSubscribeOk := good_bind' good_u8 fun _ => good_pure' _

end Verif.Message
