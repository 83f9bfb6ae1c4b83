import Verif.AmfSend
import Verif.RtmpSend

/-!
# C72: AMF messages from their elements to the chunks

`ngx_rtmp_create_amf`, nginx-rtmp-module/src/ngx_rtmp_send.c 418-446: the elements are written to buffers of `chunk_size` bytes, and these become
chunks.
-/

namespace Verif.RtmpSend

open Verif.RtmpSpec
open Verif.Amf (Mem Elt wire create)
open Verif.AmfSpec (valueOf Given)

/-- A buffer of `ngx_rtmp_alloc_shared_buf` with data, ngx_rtmp_shared.c 49: `NGX_RTMP_MAX_CHUNK_HEADER` bytes are in front of them. -/
def shared (data : Bytes) : Buf := ⟨18, data⟩

theorem payload_shared (out : List Bytes) : payload (out.map shared) = out.flatten := by
  simp only [payload, List.map_map]
  congr 1
  exact List.map_id' out

theorem pieces_of {size : Nat} : ∀ {out : List Bytes}, out ≠ [] → (∀ b ∈ out.dropLast, b.length = size) → (∀ b ∈ out, 0 < b.length ∧ b.length ≤ size) →
    Pieces size (out.map shared) := by
  intro out
  induction out with
  | nil => intro h; exact absurd rfl h
  | cons b bs ih =>
    intro _ h1 h2
    cases bs with
    | nil => exact (h2 b (by simp)).2
    | cons c bs =>
      refine ⟨h1 b (by simp), ih (by simp) (fun x hx => h1 x ?_) (fun x hx => h2 x (by simp [hx])), ?_⟩
      · rw [List.dropLast_cons_of_ne_nil (by simp)]
        exact List.mem_cons_of_mem _ hx
      · have := (h2 c (by simp)).1
        intro h
        simp [payload, shared] at h
        simp [h.1] at this

/-- `ngx_rtmp_create_amf`: `lh` is null. -/
def createAmf (fix : Bool) (maxStreams cap spare : Nat) (m : Mem) (h : Hdr) (es : List Elt) : Res (List Buf) :=
  match create cap spare m es with
  | .ok out => prepare fix maxStreams h none (out.map shared)
  | .err => .err
  | .ub => .ub

/-- **C72, AMF.** Elements whose data are there, a header with a usable chunk stream, enough buffers: a receiver that puts the chunks together gets a
message that is the encoding of the values of the elements, with the time, the type and the stream of the header. -/
theorem amf_messages_are_sent_in_chunks (fix : Bool) (maxStreams maxLen spare : Nat) (m : Mem) (h : Hdr) (es : List Elt) (F : List Mess → Option (List Nat))
    (T : Terms) (S : Sender) (sizes : List Nat) (hes : ∀ e ∈ es, Given m e) (hne : es ≠ []) (hcap : 0 < S.size)
    (hroom : (wire (es.map (valueOf m))).length ≤ spare * S.size)
    (hid : 2 ≤ h.csid ∧ h.csid ≤ 65599 ∧ h.csid < maxStreams) (hts : h.ts < 2 ^ 32) (hty : h.type < 256) (hms : h.msid < 2 ^ 32)
    (hlen : (wire (es.map (valueOf m))).length < 2 ^ 24 ∧ (wire (es.map (valueOf m))).length ≤ maxLen)
    (hcur : (S.lanes h.csid).cur = none) (hrep : T.rep = fix) (hext : T.ext = true)
    (hF : F (S.sent ++ [⟨h.csid, h.ts, h.type, h.msid, wire (es.map (valueOf m))⟩]) = some sizes) (hs : ∀ n ∈ sizes, 1 ≤ n ∧ n ≤ 10485760) :
    ∃ out S', createAmf fix maxStreams S.size spare m h es = .ok out ∧ SendsAll F T maxStreams maxLen S (bytes out) S' ∧
      S'.sent = S.sent ++ [⟨h.csid, h.ts, h.type, h.msid, wire (es.map (valueOf m))⟩] ∧ (S'.lanes h.csid).cur = none ∧
      ∀ d, d ≠ h.csid → S'.lanes d = S.lanes d := by
  rcases Verif.Amf.messages_are_the_values_of_their_elements S.size spare m es hcap hes with ⟨_, h1⟩ | ⟨o, h1, h2, _, h4, h5⟩
  · omega
  have hone : o ≠ [] := by
    intro h0
    subst h0
    cases es with
    | nil => exact hne rfl
    | cons e es => simp [wire, Verif.AmfSpec.enc] at h2
  have hp : payload (o.map shared) = wire (es.map (valueOf m)) := by rw [payload_shared, h2]
  obtain ⟨out, S', q1, q2, q3, q4, q5, _⟩ := messages_are_sent_in_chunks fix maxStreams maxLen h none (o.map shared) F T S sizes hid hts hty hms
    (by rw [hp]; exact hlen) (fun b hb => by
      simp only [List.mem_map] at hb
      obtain ⟨x, _, rfl⟩ := hb
      rfl) (pieces_of hone h4 h5) hcur (fun l hl => by cases hl) hrep hext (by rw [hp]; exact hF) hs
  rw [hp] at q3
  refine ⟨out, S', ?_, q2, q3, by rw [q4], q5⟩
  unfold createAmf
  rw [h1]
  exact q1

/-! ## Cases -/

/-- A status message of 200 bytes in chunks of 128, on chunk stream 5. -/
def sample : List Buf := [shared (List.replicate 128 1), shared (List.replicate 72 2)]

example : prepare false 32 ⟨5, 40, 20, 1, 0⟩ none sample =
    .ok [⟨6, [5, 0, 0, 40, 0, 0, 200, 20, 1, 0, 0, 0] ++ List.replicate 128 1⟩, ⟨17, [0xc5] ++ List.replicate 72 2⟩] := by
  decide +kernel

/-- Late times need the extended timestamp, here in every chunk. -/
example : prepare true 500 ⟨320, 0x1000000, 20, 1, 0⟩ none sample =
    .ok [⟨0, [1, 0, 1, 255, 255, 255, 0, 0, 200, 20, 1, 0, 0, 0, 1, 0, 0, 0] ++ List.replicate 128 1⟩,
      ⟨11, [0xc1, 0, 1, 1, 0, 0, 0] ++ List.replicate 72 2⟩] := by
  decide +kernel

example : ∃ out' S', prepare true 500 ⟨320, 0x1000000, 20, 1, 0⟩ none sample = .ok out' ∧
    SendsAll (fun _ => some []) ⟨true, true, false, false⟩ 500 1048576 {} (bytes out') S' ∧
    S'.sent = [⟨320, 0x1000000, 20, 1, payload sample⟩] := by
  obtain ⟨out', S', h1, h2, h3, _⟩ := messages_are_sent_in_chunks true 500 1048576 ⟨320, 0x1000000, 20, 1, 0⟩ none sample (fun _ => some [])
    ⟨true, true, false, false⟩ {} [] (by decide) (by decide) (by decide) (by decide) (by decide +kernel) (by decide) (by
      refine ⟨by decide +kernel, ?_, by decide +kernel⟩
      show (_ : Nat) ≤ _
      decide +kernel) rfl (fun l hl => by cases hl) rfl rfl rfl (by simp)
  exact ⟨out', S', h1, h2, h3⟩

/-- A header that is relative to the one before. -/
example : Knows ⟨5, 40, 20, 1, 0⟩ (some ⟨5, 30, 20, 1, 200⟩) 200 false (some ⟨30, 200, 20, 1, 10, false⟩) := by
  intro l hl _ _
  cases hl
  exact ⟨_, rfl, rfl, rfl, by decide, fun _ _ => ⟨rfl, rfl, fun h => by cases h⟩⟩

/-- Why `Knows` asks for a difference of 0 before a repeated header: a message with the time of the one before gets type 3, which repeats the
difference, so that no message with this header is correct when the difference was another one. No caller passes a last header today. -/
theorem repeated_time_needs_a_repeated_difference (T : Terms) (p : Prev) (m : Mess) (h : Hdr) (hm : m.payload.length ≠ 0) (hp : p.field ≠ 0) :
    format h (some { h with csid := 1, mlen := m.payload.length }) m.payload.length = (3, 0) ∧ ¬ Fits T 3 0 m (some p) := by
  refine ⟨by simp [format, hm], ?_⟩
  rintro (⟨h, _⟩ | ⟨_, _, _, _, _, h⟩)
  · cases h
  · exact hp (h rfl).1.symm

end Verif.RtmpSend
