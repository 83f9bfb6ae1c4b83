import Verif.RtmpHeld
import Verif.RtmpPools

/-!
# RTMP: cases

The hypotheses of the theorems of RtmpProps.lean and RtmpDeliver.lean can be met, and the full claim of C65 is false.
-/

namespace Verif.Rtmp

open Verif.RtmpSpec

/-- Rounds for bytes that arrive in the given parts. -/
def feed (g : Cfg) (H : Handler) : Nat → Sess → List (List UInt8) → Option Sess
  | 0, _, _ => none
  | k + 1, s, parts =>
    if s.oldSize ≠ 0 then
      match iter g H s [] with
      | .ok s' => feed g H k s' parts
      | _ => none
    else
      match parts with
      | [] => some s
      | p :: ps =>
        if p ≠ [] ∧ p.length ≤ room s then
          match iter g H s p with
          | .ok s' => feed g H k s' ps
          | _ => none
        else none

theorem feed_run {g : Cfg} {H : Handler} {s0 : Sess} : ∀ (k : Nat) {s s' : Sess} {parts : List (List UInt8)} {bytes : List UInt8}, Run g H s0 bytes s →
    feed g H k s parts = some s' → Run g H s0 (bytes ++ parts.flatten) s' ∧ Waits s' := by
  intro k
  induction k with
  | zero => intro s s' parts bytes _ h; cases h
  | succ k ih =>
    intro s s' parts bytes hr h
    unfold feed at h
    split at h
    · rename_i hz
      split at h
      · rename_i s1 e
        exact ih (.again hr hz e) h
      · cases h
    · rename_i hz
      have hz' : s.oldSize = 0 := by simpa using hz
      split at h
      · cases h
        exact ⟨by simpa using hr, hz'⟩
      · rename_i p ps
        split at h
        · rename_i hp
          split at h
          · rename_i s1 e
            have := ih (.recv p hr hz' hp.1 hp.2 e) h
            simpa using this
          · cases h
        · cases h

/-- The state after the bytes. -/
def fed (g : Cfg) (H : Handler) (t3 : T3) (parts : List (List UInt8)) : Sess := (feed g H 100 (newSess g t3) parts).getD (newSess g t3)

theorem fed_run {g : Cfg} {H : Handler} {t3 : T3} {parts : List (List UInt8)} (h : (feed g H 100 (newSess g t3) parts).isSome = true) :
    Run g H (newSess g t3) parts.flatten (fed g H t3 parts) ∧ Waits (fed g H t3 parts) := by
  obtain ⟨s, hs⟩ := Option.isSome_iff_exists.1 h
  have := feed_run 100 (Run.init (g := g) (H := H) (s0 := newSess g t3)) hs
  unfold fed
  rw [hs]
  simpa using this

def g0 : Cfg := ⟨32, 1048576⟩

/-- Handlers that know the message "Set Chunk Size". -/
def F0 : List Mess → Option (List Nat) := fun l =>
  match l.getLast? with
  | some ⟨_, _, 1, _, [a, b, c, d]⟩ => some [a.toNat * 16777216 + b.toNat * 65536 + c.toNat * 256 + d.toNat]
  | _ => some []

/-! ## C64 -/

/-- The chunk size is set to 2, then a message of 5 bytes in three chunks. -/
def bytes1 : List UInt8 := [2, 0, 0, 0, 0, 0, 4, 1, 0, 0, 0, 0, 0, 0, 0, 2,
  4, 0, 0, 10, 0, 0, 5, 8, 1, 0, 0, 0, 11, 12, 0xc4, 13, 14, 0xc4, 15]

/-- All at once, byte by byte. -/
example : (fed g0 (flatH F0) .auto [bytes1]).log = [⟨2, 0, 4, 1, 0, [[0, 0, 0, 2]]⟩, ⟨4, 10, 5, 8, 1, [[11, 12], [13, 14], [15]]⟩] ∧
    (fed g0 (flatH F0) .auto [bytes1]).log = (fed g0 (flatH F0) .auto (bytes1.map ([·]))).log ∧
    (fed g0 (flatH F0) .auto [bytes1]).chunk = 2 := by decide +kernel

/-- The hypotheses of `messages_of_bytes`. -/
example : Run g0 (flatH F0) (newSess g0 .auto) bytes1 (fed g0 (flatH F0) .auto [bytes1]) ∧ Waits (fed g0 (flatH F0) .auto [bytes1]) ∧
    Run g0 (flatH F0) (newSess g0 .auto) bytes1 (fed g0 (flatH F0) .auto (bytes1.map ([·]))) ∧ Waits (fed g0 (flatH F0) .auto (bytes1.map ([·]))) := by
  have h1 := fed_run (g := g0) (H := flatH F0) (t3 := .auto) (parts := [bytes1]) (by decide +kernel)
  have h2 := fed_run (g := g0) (H := flatH F0) (t3 := .auto) (parts := bytes1.map ([·])) (by decide +kernel)
  exact ⟨h1.1, h1.2, h2.1, h2.2⟩

/-- A message that is too long closes the connection (`fails_of_bytes`). -/
example : Fails ⟨32, 10⟩ (flatH F0) (newSess ⟨32, 10⟩ .auto) [4, 0, 0, 10, 0, 0, 11, 8, 1, 0, 0, 0] := by
  refine Or.inr ⟨[], _, _, rfl, .init, rfl, ?_, ?_, ?_⟩
  · decide
  · decide +kernel
  · decide +kernel

/-! ## C65 -/

/-- The sender of `bytes1`. -/
def m1 : Mess := ⟨2, 0, 1, 0, [0, 0, 0, 2]⟩
def m2 : Mess := ⟨4, 10, 8, 1, [11, 12, 13, 14, 15]⟩

theorem stream1 (T : Terms) : ∃ S, Stream F0 T g0.maxStreams g0.maxMessage bytes1 S ∧ S.sent = [m1, m2] ∧ S.size = 2 := by
  have ex : ∀ n, n < big → extTs T 3 n = [] ∧ extTs T 0 n = [] := fun n hn => ⟨by unfold extTs; rw [if_neg (by omega)], by unfold extTs; rw [if_neg (by omega)]⟩
  have s0 : Stream F0 T g0.maxStreams g0.maxMessage [] {} := .init
  have s1 := Stream.chunk s0 (Sends.first 2 0 0 _ m1 rfl (by decide) rfl (Basic.one 2 (by decide) (by decide)) (by decide) (by decide) (by decide) (by decide)
    (by decide) (by decide) ⟨rfl, rfl⟩ (fun _ => by decide) (fun _ h => absurd h (by decide)) (by
      unfold Finish
      rw [if_pos (by decide)]
      exact ⟨[2], by decide, by decide, rfl⟩))
  have s2 := Stream.chunk s1 (Sends.first 4 0 10 _ m2 rfl (by decide) rfl (Basic.one 4 (by decide) (by decide)) (by decide) (by decide) (by decide) (by decide)
    (by decide) (by decide) ⟨rfl, rfl⟩ (fun _ => by decide) (fun _ h => absurd h (by decide)) (by
      unfold Finish
      rw [if_neg (by decide)]))
  have s3 := Stream.chunk s2 (Sends.next 4 _ m2 [13, 14, 15] ⟨10, 5, 8, 1, 10, true⟩ rfl rfl (Basic.one 4 (by decide) (by decide))
    (fun _ h => absurd h (by decide)) (by
      unfold Finish
      rw [if_neg (by decide)]))
  have s4 := Stream.chunk s3 (Sends.next 4 _ m2 [15] ⟨10, 5, 8, 1, 10, true⟩ rfl rfl (Basic.one 4 (by decide) (by decide))
    (fun _ h => absurd h (by decide)) (by
      unfold Finish
      rw [if_pos (by decide)]
      exact ⟨[], by decide, by decide, rfl⟩))
  rw [(ex 0 (by decide)).2, (ex 10 (by decide)).1, (ex 10 (by decide)).2] at s4
  exact ⟨_, s4, rfl, rfl⟩

/-- The hypotheses of `sent_received_partial`. -/
example : ∃ S, ModeOk ⟨true, true, false, false⟩ .auto ∧ Stream F0 ⟨true, true, false, false⟩ g0.maxStreams g0.maxMessage bytes1 S ∧
    Run g0 (flatH F0) (newSess g0 .auto) bytes1 (fed g0 (flatH F0) .auto [bytes1]) ∧ Waits (fed g0 (flatH F0) .auto [bytes1]) ∧
    S.sent = [m1, m2] := by
  obtain ⟨S, h1, h2, _⟩ := stream1 ⟨true, true, false, false⟩
  have h := fed_run (g := g0) (H := flatH F0) (t3 := .auto) (parts := [bytes1]) (by decide +kernel)
  exact ⟨S, Or.inr (Or.inr (Or.inr ⟨rfl, rfl, rfl⟩)), h1, h.1, h.2, h2⟩

/-- Two messages at the times 1000 and 2000; the second has a header of type 3. -/
def m3 : Mess := ⟨4, 1000, 8, 1, [1]⟩
def m4 : Mess := ⟨4, 2000, 8, 1, [2]⟩
def bytes2 : List UInt8 := [4, 0, 3, 0xe8, 0, 0, 1, 8, 1, 0, 0, 0, 1, 0xc4, 2]

theorem stream2 : ∃ S, Stream F0 ⟨true, false, false, true⟩ g0.maxStreams g0.maxMessage bytes2 S ∧ S.sent = [m3, m4] := by
  have s0 : Stream F0 ⟨true, false, false, true⟩ g0.maxStreams g0.maxMessage [] {} := .init
  have s1 := Stream.chunk s0 (Sends.first 4 0 1000 _ m3 rfl (by decide) rfl (Basic.one 4 (by decide) (by decide)) (by decide) (by decide) (by decide) (by decide)
    (by decide) (by decide) ⟨rfl, rfl⟩ (fun _ => by decide) (fun _ h => absurd h (by decide)) (by
      unfold Finish
      rw [if_pos (by decide)]
      exact ⟨[], by decide, by decide, rfl⟩))
  have s2 := Stream.chunk s1 (Sends.first 4 3 1000 _ m4 rfl (by decide) rfl (Basic.one 4 (by decide) (by decide)) (by decide) (by decide) (by decide) (by decide)
    (by decide) (by decide) (Or.inr ⟨by decide, by decide, rfl, by decide, fun _ => ⟨rfl, rfl⟩, fun _ => ⟨rfl, Or.inl rfl⟩⟩)
    (fun _ => by decide) (fun _ _ h => absurd h (by decide)) (by
      unfold Finish
      rw [if_pos (by decide)]
      exact ⟨[], by decide, by decide, rfl⟩))
  exact ⟨_, s2, rfl⟩

/-- The second message is received with the time of the first. -/
theorem not_delivers_type3 : ¬ Delivers := by
  intro h
  obtain ⟨S, h1, h2⟩ := stream2
  have hr := fed_run (g := g0) (H := flatH F0) (t3 := .on) (parts := [bytes2]) (by decide +kernel)
  have := h g0 F0 ⟨true, false, false, true⟩ .on _ S _ rfl (by decide) h1 hr.1 hr.2
  rw [h2] at this
  revert this
  decide +kernel

/-- Two messages with extended timestamps on two chunk streams: the second chunk of the first comes after the second. -/
def m5 : Mess := ⟨4, 0x1000000, 8, 1, List.replicate 128 7 ++ [1, 2, 3, 4, 5]⟩
def m6 : Mess := ⟨6, 0x2000000, 9, 1, [9]⟩
def part5 : List UInt8 := [4, 0xff, 0xff, 0xff, 0, 0, 133, 8, 1, 0, 0, 0, 1, 0, 0, 0] ++ List.replicate 128 7
def part6 : List UInt8 := [6, 0xff, 0xff, 0xff, 0, 0, 1, 9, 1, 0, 0, 0, 2, 0, 0, 0, 9]
def part7 : List UInt8 := [0xc4, 1, 0, 0, 0, 1, 2, 3, 4, 5]

theorem stream3 : ∃ S, Stream F0 ⟨true, true, true, false⟩ g0.maxStreams g0.maxMessage (part5 ++ part6 ++ part7) S ∧ S.sent = [m6, m5] := by
  have s0 : Stream F0 ⟨true, true, true, false⟩ g0.maxStreams g0.maxMessage [] {} := .init
  have s1 := Stream.chunk s0 (Sends.first 4 0 0x1000000 _ m5 rfl (by decide +kernel) rfl (Basic.one 4 (by decide +kernel) (by decide +kernel)) (by decide +kernel) (by decide +kernel) (by decide +kernel)
    (by decide +kernel) (by decide +kernel) (by decide +kernel) ⟨rfl, rfl⟩ (fun h => absurd h (by decide +kernel)) (fun _ h => absurd h (by decide +kernel)) (by
      unfold Finish
      rw [if_neg (by decide +kernel)]))
  have s2 := Stream.chunk s1 (Sends.first 6 0 0x2000000 _ m6 rfl (by decide +kernel) rfl (Basic.one 6 (by decide +kernel) (by decide +kernel)) (by decide +kernel) (by decide +kernel) (by decide +kernel)
    (by decide +kernel) (by decide +kernel) (by decide +kernel) ⟨rfl, rfl⟩ (fun h => absurd h (by decide +kernel)) (fun _ h => absurd h (by decide +kernel)) (by
      unfold Finish
      rw [if_pos (by decide +kernel)]
      exact ⟨[], by decide, by decide, rfl⟩))
  have s3 := Stream.chunk s2 (Sends.next 4 _ m5 [1, 2, 3, 4, 5] ⟨0x1000000, 133, 8, 1, 0x1000000, true⟩ rfl rfl (Basic.one 4 (by decide +kernel) (by decide +kernel))
    (fun h => absurd h (by decide +kernel)) (by
      unfold Finish
      rw [if_pos (by decide +kernel)]
      exact ⟨[], by decide, by decide, rfl⟩))
  have e : (([] : List UInt8) ++ ([UInt8.ofNat (0 * 64 + 4)] ++ mhdr 0 0x1000000 m5 ++ extTs ⟨true, true, true, false⟩ 0 0x1000000 ++ m5.payload.take 128)) = part5 := by
    decide +kernel
  have e2 : ([UInt8.ofNat (0 * 64 + 6)] ++ mhdr 0 0x2000000 m6 ++ extTs ⟨true, true, true, false⟩ 0 0x2000000 ++ m6.payload.take 128) = part6 := by
    decide +kernel
  have e3 : ([UInt8.ofNat (3 * 64 + 4)] ++ extTs ⟨true, true, true, false⟩ 3 0x1000000 ++ ([1, 2, 3, 4, 5] : List UInt8).take 128) = part7 := by
    decide +kernel
  rw [← e, ← e2, ← e3]
  exact ⟨_, s3, rfl⟩

/-- The extended timestamp is taken for the payload of the first message. -/
theorem not_delivers_auto : ¬ Delivers := by
  intro h
  obtain ⟨S, h1, h2⟩ := stream3
  have hr := fed_run (g := g0) (H := flatH F0) (t3 := .auto) (parts := [part5, part6, part7]) (by decide +kernel)
  have e : [part5, part6, part7].flatten = part5 ++ part6 ++ part7 := by decide +kernel
  rw [e] at hr
  have := h g0 F0 ⟨true, true, true, false⟩ .auto _ S _ rfl (by decide) h1 hr.1 hr.2
  rw [h2] at this
  revert this
  decide +kernel

/-! ## C66 -/

/-- The chunk size is set to 4096 when a message has started. -/
def calmBytes : List UInt8 := [4, 0, 0, 10, 0, 0, 130, 8, 1, 0, 0, 0] ++ List.replicate 128 7

def calmBytes2 : List UInt8 := [2, 0, 0, 0, 0, 0, 4, 1, 0, 0, 0, 0, 0, 0, 16, 0, 0xc4, 1, 2]

/-- The hypotheses of `pools_released_partial`; two pools were created. -/
example : Run g0 (flatH F0) (newSess g0 .auto) ([calmBytes, calmBytes2].flatten) (fed g0 (flatH F0) .auto [calmBytes, calmBytes2]) ∧
    Calm (flatH F0) (fed g0 (flatH F0) .auto [calmBytes, calmBytes2]).log ∧ (fed g0 (flatH F0) .auto [calmBytes, calmBytes2]).npools = 2 ∧
    (fed g0 (flatH F0) .auto [calmBytes, calmBytes2]).log.length = 2 := by
  have hr := fed_run (g := g0) (H := flatH F0) (t3 := .auto) (parts := [calmBytes, calmBytes2]) (by decide +kernel)
  have hl : (fed g0 (flatH F0) .auto [calmBytes, calmBytes2]).log.length = 2 := by decide +kernel
  refine ⟨hr.1, ?_, by decide +kernel, hl⟩
  intro k hk sizes hs
  rw [hl] at hk
  rcases (by omega : k = 0 ∨ k = 1) with rfl | rfl
  · have : flatH F0 ((fed g0 (flatH F0) .auto [calmBytes, calmBytes2]).log.take 1) = some [4096] := by decide +kernel
    rw [this] at hs
    cases hs
    decide +kernel
  · have : flatH F0 ((fed g0 (flatH F0) .auto [calmBytes, calmBytes2]).log.take 2) = some [] := by decide +kernel
    rw [this] at hs
    cases hs
    exact ⟨by decide, fun n hn => by cases hn⟩

/-- The chunk size is set to 4 three times. -/
def leakBytes : List UInt8 :=
  [2, 0, 0, 0, 0, 0, 4, 1, 0, 0, 0, 0, 0, 0, 0, 4, 2, 0, 0, 0, 0, 0, 4, 1, 0, 0, 0, 0, 0, 0, 0, 4, 2, 0, 0, 0, 0, 0, 4, 1, 0, 0, 0, 0, 0, 0, 0, 4]

/-- Pool 0 is lost when the messages arrive together. -/
theorem not_released : ¬ Released := by
  intro h
  have hr := fed_run (g := g0) (H := flatH F0) (t3 := .auto) (parts := [leakBytes]) (by decide +kernel)
  have := h g0 (flatH F0) .auto _ _ hr.1
  revert this
  decide +kernel

example : closePools (fed g0 (flatH F0) .auto [leakBytes]) = [0] := by decide +kernel

/-! ## C67 -/

/-- The hypotheses of `held_bounded_partial`, in the middle of a message: the chunk stream holds two bytes. -/
example : ∃ S st, Stream F0 ⟨true, true, false, false⟩ g0.maxStreams g0.maxMessage (bytes1.take 30 ++ bytes1.drop 30) S ∧
    Run g0 (flatH F0) (newSess g0 .auto) (bytes1.take 30) (fed g0 (flatH F0) .auto [bytes1.take 30]) ∧
    (fed g0 (flatH F0) .auto [bytes1.take 30]).streams[4]? = some st ∧ held st.chain = 2 := by
  obtain ⟨S, h1, _⟩ := stream1 ⟨true, true, false, false⟩
  have h := fed_run (g := g0) (H := flatH F0) (t3 := .auto) (parts := [bytes1.take 30]) (by decide +kernel)
  obtain ⟨st, hst⟩ : ∃ st, (fed g0 (flatH F0) .auto [bytes1.take 30]).streams[4]? = some st := Option.isSome_iff_exists.1 (by decide +kernel)
  have hh : (fed g0 (flatH F0) .auto [bytes1.take 30]).streams[4]?.map (fun st => held st.chain) = some 2 := by decide +kernel
  rw [hst] at hh
  exact ⟨S, st, by rw [List.take_append_drop]; exact h1, h.1, hst, by simpa using hh⟩

/-- A message of 200 bytes, when 200 is the limit; after its first chunk a header says that it has 100 bytes. -/
def longBytes : List (List UInt8) := [[4, 0, 0, 10, 0, 0, 200, 8, 1, 0, 0, 0] ++ List.replicate 128 7, [0x44, 0, 0, 0, 0, 0, 100, 8] ++ List.replicate 128 7,
  [0xc4] ++ List.replicate 128 7, [0xc4] ++ List.replicate 128 7]

theorem not_bounded : ¬ Bounded := by
  intro h
  have hr := fed_run (g := ⟨32, 200⟩) (H := flatH F0) (t3 := .auto) (parts := longBytes) (by decide +kernel)
  obtain ⟨st, hst⟩ : ∃ st, (fed ⟨32, 200⟩ (flatH F0) .auto longBytes).streams[4]? = some st := Option.isSome_iff_exists.1 (by decide +kernel)
  have hh : (fed ⟨32, 200⟩ (flatH F0) .auto longBytes).streams[4]?.map (fun st => held st.chain) = some 512 := by decide +kernel
  rw [hst] at hh
  have := h ⟨32, 200⟩ (flatH F0) .auto _ _ hr.1 4 st (by decide) hst
  simp at hh
  rw [hh] at this
  exact absurd this (by decide)

end Verif.Rtmp
