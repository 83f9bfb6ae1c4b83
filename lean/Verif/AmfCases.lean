import Verif.AmfSend
import Verif.AmfCmd
import Verif.AmfChunks

/-!
# AMF and the division into chunks: cases

The hypotheses of the theorems of AmfProps.lean, AmfCmd.lean, AmfSend.lean and RtmpSend.lean can be met, by the templates of the code.
-/

namespace Verif.Amf

open Verif.AmfSpec

/-- The letters of a name. -/
def ascii (s : String) : Bytes := s.toList.map fun c => UInt8.ofNat c.toNat

/-! ## `connect`, ngx_rtmp_cmd_module.c 182-228 -/

/-- `ngx_rtmp_connect_t`: app, flashver, swf_url, tc_url, acodecs, vcodecs, page_url, object_encoding and trans. -/
def connectMem : Mem := fun a => match a with
  | 0 | 1 | 2 | 3 | 6 => List.replicate 256 0
  | 4 | 5 | 7 | 8 => List.replicate 8 0
  | _ => []

def connectCmd : List Elt := [
  .mk 2 false false (ascii "app") (some 0) [] 256,
  .mk 2 false false (ascii "flashVer") (some 1) [] 256,
  .mk 2 false false (ascii "swfUrl") (some 2) [] 256,
  .mk 2 false false (ascii "tcUrl") (some 3) [] 256,
  .mk 0 false false (ascii "audioCodecs") (some 4) [] 8,
  .mk 0 false false (ascii "videoCodecs") (some 5) [] 8,
  .mk 2 false false (ascii "pageUrl") (some 6) [] 256,
  .mk 0 false false (ascii "objectEncoding") (some 7) [] 0]

def connectElts : List Elt := [.mk 0 false false [] (some 8) [] 0, .mk 3 false false [] none connectCmd 0]

theorem connectCmd_fit : ∀ e ∈ connectCmd, Fit connectMem e := by
  intro e he
  simp only [connectCmd, List.mem_cons, List.not_mem_nil, or_false] at he
  rcases he with rfl | rfl | rfl | rfl | rfl | rfl | rfl | rfl <;>
    exact .mk _ _ _ _ _ _ _ (fun a ha => by cases ha; decide +kernel) (by omega) (by simp)

/-- The template of `connect` fits its destinations. -/
theorem connect_fit : ∀ e ∈ connectElts, Fit connectMem e := by
  intro e he
  simp only [connectElts, List.mem_cons, List.not_mem_nil, or_false] at he
  rcases he with rfl | rfl
  · exact .mk _ _ _ _ _ _ _ (fun a ha => by cases ha; decide +kernel) (by omega) (by simp)
  · exact .mk _ _ _ _ _ _ _ (by simp) (by omega) connectCmd_fit

theorem connect_plain : ∀ e ∈ connectElts, Plain e := by
  intro e he
  simp only [connectElts, List.mem_cons, List.not_mem_nil, or_false] at he
  rcases he with rfl | rfl
  · exact .field _ _ _ _ _ _ (by omega) (by simp) (by simp)
  · refine .field _ _ _ _ _ _ (by omega) (by simp) (fun e he => ?_)
    simp only [connectCmd, List.mem_cons, List.not_mem_nil, or_false] at he
    rcases he with rfl | rfl | rfl | rfl | rfl | rfl | rfl | rfl <;> exact .field _ _ _ _ _ _ (by omega) (by decide) (by simp)

/-- The number 1 as a double, and a command object with one wanted and one unwanted field. -/
def connectVals : List Value := [.num [0x3f, 0xf0, 0, 0, 0, 0, 0, 0],
  .obj (Fields.ofList [(ascii "app", .str (ascii "live")), (ascii "fpad", .bool 0), (ascii "extra", .strict (Values.ofList [.null, .str (ascii "x")]))])]

/-- The message arrives in parts, and something follows. -/
def connectIn : List Bytes := [(wire connectVals).take 5, [], (wire connectVals).drop 5 ++ [5]]

example : seen (receive 8 connectElts connectIn connectMem) = .ok [5] (takeItems connectElts (Values.ofList connectVals) connectMem) := by
  refine values_are_read_as_they_were_sent 8 connectElts connectIn connectVals [5] connectMem (by decide +kernel) ?_ (by omega) connect_fit connect_plain
    (by decide) (.inl rfl)
  intro v hv
  simp only [connectVals, List.mem_cons, List.not_mem_nil, or_false] at hv
  rcases hv with rfl | rfl
  · exact ⟨rfl, by decide⟩
  · refine ⟨?_, by decide⟩
    simp [Value.Ok, Fields.ofList, Fields.Ok, Values.ofList, Values.Ok, Values.length, ascii]

/-- The name of the application and the transaction are where they belong. -/
example : (takeItems connectElts (Values.ofList connectVals) connectMem 0).take 5 = ascii "live" ++ [0] ∧
    takeItems connectElts (Values.ofList connectVals) connectMem 8 = [0, 0, 0, 0, 0, 0, 0xf0, 0x3f] ∧
    takeItems connectElts (Values.ofList connectVals) connectMem 1 = connectMem 1 := by
  decide +kernel

/-- The hypothesis of the safety theorem is met by a template of the code. -/
example (d : Nat) (inp : List Bytes) : seen (receive d connectElts inp connectMem) ≠ .ub := by
  intro h
  have := reading_is_safe d connectElts inp connectMem connect_fit
  rw [h] at this
  exact this

/-- Two ways to split the same bytes. -/
example : seen (receive 8 connectElts connectIn connectMem) = seen (receive 8 connectElts [connectIn.flatten] connectMem) :=
  reading_does_not_depend_on_the_buffers 8 connectElts _ _ connectMem (by simp)

/-- An optional element at the end of a message: `play` without a start, ngx_rtmp_cmd_module.c 718-743. -/
example : seen (receive 4 [.mk 2 false false [] (some 0) [] 256, .mk 0 false true [] (some 4) [] 0, .mk 0 false true [] (some 5) [] 0]
    [[2, 0, 1], [97]] connectMem) = .ok [] (takeItems [.mk 2 false false [] (some 0) [] 256] (Values.ofList [.str [97]]) connectMem) := by
  refine (values_are_read_as_they_were_sent 4 _ _ [.str [97]] [] connectMem (by decide) ?_ (by omega) ?_ ?_ (by decide)
    (.inr ⟨rfl, _, rfl, rfl, rfl⟩)).trans rfl
  · intro v hv
    simp only [List.mem_singleton] at hv
    subst hv
    exact ⟨by show (_ : Nat) < 65536; decide, by decide⟩
  · intro e he
    simp only [List.mem_cons, List.not_mem_nil, or_false] at he
    rcases he with rfl | rfl | rfl <;>
      exact .mk _ _ _ _ _ _ _ (fun a ha => by cases ha; decide +kernel) (by omega) (by simp)
  · intro e he
    simp only [List.mem_cons, List.not_mem_nil, or_false] at he
    rcases he with rfl | rfl | rfl <;> exact .field _ _ _ _ _ _ (by omega) (by simp) (by simp)

/-- The meta data have variants, ngx_rtmp_codec_module.c: a codec is a name or a number. -/
example : Plain (.mk 0x103 true false (ascii "videocodecid") none [.mk 0 false false [] (some 4) [] 0, .mk 2 false false [] (some 0) [] 256] 0) :=
  .variant _ _ _ (by decide) (by simp [Elt.typeless, Elt.opt]) (fun e he => by
    simp only [List.mem_cons, List.not_mem_nil, or_false] at he
    rcases he with rfl | rfl <;> exact .field _ _ _ _ _ _ (by omega) (by simp) (by simp))

/-! ## Depth -/

/-- The very first read of any message, the name of the command: 4 bytes for each level. -/
example (type : Nat) (ht : type ≠ 16 ∧ type ≠ 19) (d : Nat) : seen (receive d [funcElt type] [nested d] func0) = .deep :=
  (reading_depth_is_not_bounded d (funcElt type) [] [nested d] func0 (by simp [funcElt, Elt.typeless, ht]) (by simp [funcElt, Elt.base, tString])
    (by simp)).2

/-- A message of the largest allowed size (`max_message`, 1 MB by default) nests 262144 calls. -/
example : ∃ inp : List Bytes, inp.flatten.length ≤ 1048576 ∧ seen (receive 262144 [funcElt 20] inp func0) = .deep := by
  have h := reading_depth_is_not_bounded 262144 (funcElt 20) [] [nested 262144] func0 rfl (by simp [funcElt, Elt.base, tString]) (by simp)
  exact ⟨_, by omega, h.2⟩

example (inp : List Bytes) (h : inp.flatten.length < 100) : seen (receive 100 connectElts inp connectMem) ≠ .deep :=
  reading_depth_is_below_the_length_partial 100 connectElts inp connectMem connect_fit h

/-! ## Commands -/

example : ∃ rest, command 8 20 [[2, 0, 7], ascii "connect" ++ [0x3f], [0xf0]] = .call (ascii "connect") rest ∧ rest.flatten = [0x3f, 0xf0] :=
  commands_reach_their_handlers 8 20 _ [] (ascii "connect") [0x3f, 0xf0] (by simp) (by omega) (by simp) (by decide +kernel) (by decide) (by decide) (by omega)

/-- A command with the prefix of AMF3, in capitals. -/
example : ∃ rest, command 8 17 [[0, 2, 0, 4], ascii "PLAY"] = .call (ascii "play") rest ∧ rest.flatten = [] :=
  commands_reach_their_handlers 8 17 _ [0] (ascii "PLAY") [] (by simp) (by simp) (by omega) (by decide +kernel) (by decide) (by decide) (by omega)

/-- A name that is not a string calls nothing that has a name. -/
example : command 8 20 [[5, 6]] = .call [] [[6]] := by decide +kernel

/-! ## Writer -/

/-- The answer to `createStream`, ngx_rtmp_cmd_module.c 383-401. -/
def answerMem : Mem := fun a => match a with
  | 0 => ascii "_result" ++ [0]
  | 1 => [0, 0, 0, 0, 0, 0, 0, 0x40]
  | 2 => [0, 0, 0, 0, 0, 0, 0xf0, 0x3f]
  | _ => []

def answer : List Elt := [.mk 2 false false [] (some 0) [] 0, .mk 0 false false [] (some 1) [] 0, .mk 5 false false [] none [] 0,
  .mk 0 false false [] (some 2) [] 8]

theorem answer_given : ∀ e ∈ answer, Given answerMem e := by
  intro e he
  simp only [answer, List.mem_cons, List.not_mem_nil, or_false] at he
  rcases he with rfl | rfl | rfl | rfl
  all_goals refine .mk _ _ _ _ _ (by simp) (by simp) (fun h => ?_) (fun h => ?_) (fun h => ?_) (by simp) (by simp) <;> revert h <;> decide +kernel

example : create 16 3 answerMem answer = .ok [[2, 0, 7, 95, 114, 101, 115, 117, 108, 116, 0, 0x40, 0, 0, 0, 0], [0, 0, 0, 5, 0, 0x3f, 0xf0, 0, 0, 0, 0, 0, 0]] := by
  decide +kernel

example : create 16 1 answerMem answer = .err := by decide +kernel

/-- What is written for `createStream` is read by a peer with a template for it. -/
example (out : List Bytes) (h : create 128 9 answerMem answer = .ok out) :
    seen (receive 4 [.mk 2 false false [] (some 0) [] 256, .mk 0 false false [] (some 4) [] 0, .mk 5 false false [] none [] 0, .mk 0 false false [] (some 5) [] 0]
      out connectMem) = .ok [] (place (place (place connectMem 0 (ascii "_result" ++ [0])) 4 (answerMem 1)) 5 (answerMem 2)) := by
  refine (what_is_written_is_read 128 9 answerMem connectMem answer _ out 4 (by omega) answer_given h ?_ (by omega) ?_ ?_ (by rfl)).trans ?_
  · intro e he
    simp only [answer, List.mem_cons, List.not_mem_nil, or_false] at he
    rcases he with rfl | rfl | rfl | rfl <;> exact ⟨by first | exact trivial | (show (_ : Nat) < 65536; decide +kernel) | (show (_ : Nat) = 8; decide +kernel), by decide +kernel⟩
  · intro e he
    simp only [List.mem_cons, List.not_mem_nil, or_false] at he
    rcases he with rfl | rfl | rfl | rfl <;>
      exact .mk _ _ _ _ _ _ _ (fun a ha => by cases ha <;> decide +kernel) (by omega) (by simp)
  · intro e he
    simp only [List.mem_cons, List.not_mem_nil, or_false] at he
    rcases he with rfl | rfl | rfl | rfl <;> exact .field _ _ _ _ _ _ (by omega) (by simp) (by simp)
  · rfl

/-- The same answer as chunks, after the start of a session. -/
example : ∃ out S', RtmpSend.createAmf false 32 128 9 answerMem ⟨5, 0, 20, 0, 0⟩ answer = .ok out ∧
    RtmpSpec.SendsAll (fun _ => some []) ⟨false, true, false, false⟩ 32 1048576 {} (RtmpSend.bytes out) S' ∧
    S'.sent = [⟨5, 0, 20, 0, wire (answer.map (valueOf answerMem))⟩] := by
  obtain ⟨out, S', h1, h2, h3, _⟩ := RtmpSend.amf_messages_are_sent_in_chunks false 32 1048576 9 answerMem ⟨5, 0, 20, 0, 0⟩ answer (fun _ => some [])
    ⟨false, true, false, false⟩ {} [] answer_given (by decide +kernel) (by decide) (by decide +kernel) (by decide) (by decide) (by decide) (by decide)
    (by decide +kernel) rfl rfl rfl rfl (by simp)
  exact ⟨out, S', h1, h2, h3⟩

end Verif.Amf
