import Verif.AmfEnc
import Verif.AmfProps

/-!
# C71: AMF messages are written as the values of their elements, in buffers that are full
-/

namespace Verif.Amf

open Verif.AmfSpec (Value Fields Values marker enc valueOf valuesOf Given takeItems Plain)

theorem items_wire (m : Mem) (es : List Elt) : AmfSpec.items (valuesOf m es) = wire (es.map (valueOf m)) := by
  induction es with
  | nil => rfl
  | cons e es ih => simp [valuesOf, AmfSpec.items, ih, wire, enc]

/-- **C71.** Elements whose data are there are never misread. A message is made if and only if there are enough buffers for its bytes. It is the
encoding of the values of the elements, one after the other, and all of its buffers but the last one are full, which is what the division into
chunks (C72) relies on. -/
theorem messages_are_the_values_of_their_elements (cap spare : Nat) (m : Mem) (es : List Elt) (hc : 0 < cap) (hes : ∀ e ∈ es, Given m e) :
    (create cap spare m es = .err ∧ spare * cap < (wire (es.map (valueOf m))).length) ∨
    ∃ out, create cap spare m es = .ok out ∧ out.flatten = wire (es.map (valueOf m)) ∧ (wire (es.map (valueOf m))).length ≤ spare * cap ∧
      (∀ b ∈ out.dropLast, b.length = cap) ∧ ∀ b ∈ out, 0 < b.length ∧ b.length ≤ cap := by
  have h := writeAll_puts es (fun e he => writesOne_of hc (hes e he)) ⟨[], none, spare⟩ ⟨by simp, by simp⟩
  rw [items_wire] at h
  unfold create
  rcases h with ⟨h, h'⟩ | ⟨w, h1, h2, h3, h4⟩
  · left
    rw [h]
    exact ⟨rfl, by simpa [W.room] using h'⟩
  · right
    rw [h1]
    refine ⟨w.chain, rfl, by rw [h3]; simp [W.chain], ?_, ?_, ?_⟩
    · simp only [W.room] at h4
      omega
    · intro b hb
      refine h2.1 b ?_
      cases hcur : w.cur with
      | none =>
        simp only [W.chain, hcur, Option.toList_none, List.append_nil] at hb
        exact (List.dropLast_sublist _).subset hb
      | some x =>
        simpa [W.chain, hcur] using hb
    · intro b hb
      simp only [W.chain, List.mem_append, Option.mem_toList] at hb
      rcases hb with hb | hb
      · have := h2.1 b hb
        omega
      · exact h2.2 b hb

/-- **C71, round trip.** What is written is what is read: a receiver with an element for each value gets from the buffers what its template asks
for, and nothing is left. -/
theorem what_is_written_is_read (cap spare : Nat) (m m' : Mem) (es es' : List Elt) (out : List Bytes) (d : Nat) (hc : 0 < cap) (hes : ∀ e ∈ es, Given m e)
    (hout : create cap spare m es = .ok out) (hv : ∀ e ∈ es, (valueOf m e).Ok ∧ 2 * (valueOf m e).depth + 2 ≤ d) (hd : 0 < d)
    (hf : ∀ e ∈ es', Fit m' e) (hp : ∀ e ∈ es', Plain e) (hl : es.length = es'.length) :
    seen (receive d es' out m') = .ok [] (takeItems es' (Values.ofList (es.map (valueOf m))) m') := by
  rcases messages_are_the_values_of_their_elements cap spare m es hc hes with ⟨h, _⟩ | ⟨o, h1, h2, _⟩
  · rw [h] at hout
    cases hout
  · rw [h1] at hout
    have e : o = out := by simpa using hout
    subst e
    refine values_are_read_as_they_were_sent d es' o (es.map (valueOf m)) [] m' (by simpa using h2) ?_ hd hf hp (by simp [hl]) (.inl (by simp [hl]))
    intro v hv'
    simp only [List.mem_map] at hv'
    obtain ⟨e, he, rfl⟩ := hv'
    exact hv e he

end Verif.Amf
