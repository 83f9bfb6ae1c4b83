import Verif.MtsRun
import Verif.MtsNal

/-! # The packets of a track, as they should be -/

namespace Verif.Mts

open TsSpec (Packet Pes)
open MtsSpec (pidOf ofPid Sample Carried groupPes Codec)

/-- A chunk as a frame in the stream. -/
def sampleOf (c : Chunk) : Sample := ⟨c.1.pts, c.1.dts, c.2⟩

theorem counted_join (c : Nat) (qs rs : List Packet) (h1 : TsSpec.Counted (c % 16) qs) (h2 : TsSpec.Counted ((c + qs.length) % 16) rs) :
    TsSpec.Counted (c % 16) (qs ++ rs) := by
  induction qs generalizing c with
  | nil => exact h2
  | cons q qs ih =>
    refine ⟨h1.1, ?_⟩
    have h3 := h1.2
    have : (c % 16 + 1) % 16 = (c + 1) % 16 := by omega
    rw [this] at h3 ⊢
    refine ih (c + 1) h3 ?_
    rw [List.length_cons] at h2
    rw [show c + 1 + qs.length = c + (qs.length + 1) by omega]; exact h2

theorem atom_pes (i : Info) (a : Atom) (g : List Chunk) (h : a.Of g) :
    i.pes a.f a.ws.flatten = groupPes (i.media = .video) i.sid (g.map sampleOf) ∧ (g.map sampleOf).head?.map Sample.dts = some a.f.dts := by
  obtain ⟨c, t, rfl⟩ := List.exists_cons_of_ne_nil h.ne
  have h1 := h.first c t rfl
  have h2 : (((c :: t).map sampleOf).map Sample.data).flatten = a.ws.flatten := by
    rw [h.bytes, flat, List.map_map]; rfl
  refine ⟨?_, by rw [h1]; rfl⟩
  rw [groupPes, h2, h1]; rfl

/-- The packets of atoms that are not the last. -/
theorem carried_plain (single : Bool) (i : Info) (hi : i.Ok) (as : List Atom) (cs : List Chunk) (h : Groups single as cs) (hl : ∀ a ∈ as, a.last = false) (cc : Nat) :
    ∃ groups us, Carried (i.media = .video) single i.pcr i.pid i.sid cc (cs.map sampleOf) 0 groups us (wroteAll i cc as) := by
  induction h generalizing cc with
  | nil => exact ⟨[], [], ⟨rfl, by simp, rfl, by simp, by simp, trivial, rfl⟩⟩
  | @cons a g as fs h1 h2 h3 ih =>
    obtain ⟨qs, q1, q2, q3, q4, q5⟩ := packets_carry (encAt i cc) a.f a.ws.flatten hi
    have hw : (encAt i cc).wrote a = qs.map Packet.bytes := by
      unfold Enc.wrote
      simp only [q1, Enc.nullCount, hl a (by simp), Bool.false_eq_true, false_and, if_false, nullPackets, List.append_nil]
    obtain ⟨groups, us, ⟨c1, c2, c3, c4, c5, c6, c7⟩⟩ := ih (fun x hx => hl x (by simp [hx])) (cc + qs.length)
    obtain ⟨p1, p2⟩ := atom_pes i a g h1
    refine ⟨g.map sampleOf :: groups, (i.pes a.f a.ws.flatten, qs) :: us, ⟨?_, ?_, ?_, ?_, ?_, ?_, ?_⟩⟩
    · simp [c1]
    · intro x hx
      rcases List.mem_cons.mp hx with rfl | hx
      · exact ⟨by simpa using h1.ne, fun hs => by simpa using h2 hs⟩
      · exact c2 x hx
    · simp only [List.map_cons, c3, p1]
    · intro u hu
      rcases List.mem_cons.mp hu with rfl | hu
      · exact ⟨pes_ok i a.f _ hi, q4, q2⟩
      · exact c4 u hu
    · intro hp k x u hx hu
      cases k with
      | zero =>
        simp only [List.getElem?_cons_zero, Option.some.injEq] at hx hu
        subst hx hu
        obtain ⟨q, n, e1, e2⟩ := q5 hp
        obtain ⟨s, s1, s2⟩ := Option.map_eq_some_iff.mp p2
        exact ⟨q, s, n, e1, s1, by rw [s2]; exact e2⟩
      | succ k => exact c5 hp k x u (by simpa using hx) (by simpa using hu)
    · rw [List.flatMap_cons]
      exact counted_join cc qs _ q3 c6
    · rw [wroteAll, hw, List.length_map, c7]
      simp

theorem Groups.unlast {single : Bool} {as : List Atom} {cs : List Chunk} (h : Groups single as cs) (f : Atom → Atom)
    (hf : ∀ a, (f a).f = a.f ∧ (f a).ws = a.ws) : Groups single (as.map f) cs := by
  induction h with
  | nil => exact .nil
  | @cons a g as fs h1 h2 h3 ih =>
    rw [List.map_cons]
    refine .cons ⟨h1.ne, ?_, ?_, ?_⟩ h2 ih
    · intro c t hg; rw [(hf a).1]; exact h1.first c t hg
    · rw [(hf a).2]; exact h1.bytes
    · rw [(hf a).2]; exact h1.fine

def unlast (a : Atom) : Atom := { a with last := false }

theorem map_unlast (as : List Atom) (h : ∀ a ∈ as, a.last = false) : as.map unlast = as := by
  induction as with
  | nil => rfl
  | cons a as ih =>
    rw [List.map_cons, ih (fun x hx => h x (by simp [hx]))]
    have : unlast a = a := by
      have := h a (by simp)
      obtain ⟨f, ws, l⟩ := a
      simp only at this
      subst this; rfl
    rw [this]

/-- The number of packets without data at the end. -/
def fill (i : Info) (l : Bool) (cc : Nat) : Nat := if l = true ∧ i.media ≠ .id3 then (16 - cc % 16) % 16 else 0

/-- The packets of all atoms of a track. -/
theorem carried_all (single : Bool) (i : Info) (hi : i.Ok) (as : List Atom) (cs : List Chunk) (h : Groups single as cs) (l : Bool) (hl : Lasts l as) (cc : Nat) :
    ∃ n groups us, Carried (i.media = .video) single i.pcr i.pid i.sid cc (cs.map sampleOf) n groups us (wroteAll i cc as) ∧
      n = fill i l (cc + (us.flatMap Prod.snd).length) := by
  have hg := h.unlast unlast (fun a => ⟨rfl, rfl⟩)
  obtain ⟨groups, us, hc⟩ := carried_plain single i hi _ cs hg (by intro a ha; obtain ⟨b, -, rfl⟩ := List.mem_map.mp ha; rfl) cc
  have h0 : wroteAll i cc (as.map unlast) = (us.flatMap Prod.snd).map Packet.bytes := by
    have := hc.bytes
    simpa using this
  cases l with
  | false =>
    simp only [Lasts, Bool.false_eq_true, if_false] at hl
    rw [map_unlast as hl] at hc h0
    exact ⟨0, groups, us, hc, by simp [fill]⟩
  | true =>
    obtain ⟨ini, a, rfl, h1, h2⟩ := hl
    have hlen : (wroteAll i cc ((ini ++ [a]).map unlast)).length = (us.flatMap Prod.snd).length := by rw [h0, List.length_map]
    rw [List.map_append, map_unlast ini h2, List.map_cons, List.map_nil, wroteAll_append] at h0 hlen
    have ha : (encAt i (cc + (wroteAll i cc ini).length)).wrote (unlast a) = (encAt i (cc + (wroteAll i cc ini).length)).packets a.f a.ws.flatten := by
      unfold Enc.wrote unlast
      simp [Enc.nullCount, nullPackets]
    have hu : wroteAll i (cc + (wroteAll i cc ini).length) [unlast a] = (encAt i (cc + (wroteAll i cc ini).length)).packets a.f a.ws.flatten := by
      rw [wroteAll, wroteAll, List.append_nil, ha]
    rw [hu] at h0 hlen
    refine ⟨fill i true (cc + (us.flatMap Prod.snd).length), groups, us, ⟨hc.all, hc.parts, hc.pes, hc.carries, hc.clock, hc.counted, ?_⟩, rfl⟩
    rw [wroteAll_append, wroteAll, wroteAll, List.append_nil, Enc.wrote]
    rw [← List.append_assoc, h0, nullPackets_filler]
    rw [List.length_append] at hlen
    have hcc : (encAt i (cc + (wroteAll i cc ini).length)).cc + ((encAt i (cc + (wroteAll i cc ini).length)).packets a.f a.ws.flatten).length = cc + (us.flatMap Prod.snd).length := by
      rw [← hlen, encAt]; simp only; omega
    rw [hcc, h1]
    rfl

end Verif.Mts
