import Verif.MtsAudio

/-! # The filters of a stream, with frames aligned -/

namespace Verif.Mts

/-- What the filters of a stream are before audio is buffered. -/
def headerCalls : Option AacConf → Call → List Call
  | some h, c => h.call c
  | none, c => [c]

theorem audio_calls (h : Option AacConf) (b : Buffer) (cs : List Call) :
    Filt.calls true (.audio h b) cs = (b.calls true (cs.flatMap (headerCalls h))).map fun r => (.audio h r.1, r.2) := by
  induction cs generalizing b with
  | nil => rfl
  | cons c cs ih =>
    rw [Filt.calls, List.flatMap_cons, bcalls_append]
    have : Filt.call true (.audio h b) c = (b.calls true (headerCalls h c)).map fun r => (.audio h r.1, r.2) := by cases h <;> rfl
    rw [this]
    cases b.calls true (headerCalls h c) with
    | ok r =>
      obtain ⟨b1, o1⟩ := r
      simp only [Res.map]
      rw [ih b1]
      cases Buffer.calls true b1 (cs.flatMap (headerCalls h)) <;> rfl
    | err => rfl
    | ub => rfl

theorem id3_calls (cs : List Call) : Filt.calls true .id3 cs = .ok (.id3, cs.flatMap id3Call) := by
  induction cs with
  | nil => rfl
  | cons c cs ih =>
    rw [Filt.calls]
    simp only [Filt.call]
    rw [ih]; rfl

/-- The bytes of a frame. -/
def InFrame.data (f : InFrame) : List UInt8 := f.pieces.flatten

/-- What a frame becomes. -/
def Conv (k : Kind) (f : InFrame) (out : List UInt8) : Prop :=
  match k with
  | .video c => ∃ a' conv z, (Annexb.begun c f.size).steps f.data = .ok (a', conv) ∧
      out = c.aud ++ (if f.key then c.extra else []) ++ conv ++ List.replicate z 0 ∧ (c.lenSize = 4 → conv.length + z = f.size) ∧ (c.lenSize ≠ 4 → z = 0)
  | .audio (some h) => out = h.header (f.size + 7) ++ f.data
  | .audio none => out = f.data
  | .id3 _ => out = id3Header f.size ++ f.data

/-- A frame with its times, after the filters. -/
def ChunkOk (k : Kind) (time : Nat) (f : InFrame) (c : Chunk) : Prop := c.1.pts = time + f.ptsDelay ∧ c.1.dts = time ∧ Conv k f c.2

/-- Whether every frame is written on its own. -/
def Kind.single : Kind → Bool
  | .audio _ => false
  | _ => true

/-- The state of the filters between frames, with `g` in the buffer. -/
def FiltInv (k : Kind) (filt : Filt) (g : List Chunk) : Prop :=
  match k with
  | .video c => g = [] ∧ ∃ a, filt = .video a ∧ a.conf = c
  | .audio h => ∃ b, filt = .audio h b ∧ Between b g ∧ b.size = 2930
  | .id3 _ => g = [] ∧ filt = .id3

/-- Frames are read in pieces that are not empty, and a frame of audio has one if there is no header. -/
structure FrameOk (k : Kind) (f : InFrame) : Prop where
  pieces : ∀ p ∈ f.pieces, p ≠ []
  some : k = .audio none → f.pieces ≠ []

def KindOk (k : Kind) : Prop :=
  match k with
  | .video c => c.Ok
  | _ => True

/-- The lengths of the atoms. -/
def Kind.plan (k : Kind) (u n : Nat) (l : Bool) : List (Nat × Bool) × Nat :=
  match k with
  | .audio _ => Mts.plan 2930 u n l
  | _ => ([(n, l)], 0)

/-- The calls for a frame. -/
def frameCalls (time : Nat) (f : InFrame) (l : Bool) : List Call :=
  [.start ⟨time + f.ptsDelay, time, f.key, f.size, 0⟩] ++ f.pieces.map .write ++ [.flush l]

/-- A frame goes through the filters of its stream. -/
theorem filt_frame (k : Kind) (hk : KindOk k) (filt : Filt) (g : List Chunk) (h : FiltInv k filt g) (f : InFrame) (hf : FrameOk k f) (time : Nat) (l : Bool) :
    (filt.calls true (frameCalls time f l) = .err ∧ ∃ c, k = .video c ∧
      ((0 < f.size ∧ f.size ≤ c.lenSize) ∨ (Annexb.begun c f.size).steps f.data = .err ∨
        ∃ a' conv, (Annexb.begun c f.size).steps f.data = .ok (a', conv) ∧ c.lenSize = 4 ∧ f.size < conv.length)) ∨
    ∃ filt' as g1 g2 c, filt.calls true (frameCalls time f l) = .ok (filt', atomCalls as) ∧ ChunkOk k time f c ∧ g ++ [c] = g1 ++ g2 ∧
      Groups k.single as g1 ∧ FiltInv k filt' g2 ∧ Lasts l as ∧ (l = true → g2 = []) ∧
      as.map Atom.shape = (k.plan (flat g).length c.2.length l).1 ∧ (flat g2).length = (k.plan (flat g).length c.2.length l).2 ∧
      (g2 ≠ [] → ∀ x, firstOf g2 x = if (flat g).length + c.2.length ≤ 2930 then firstOf g c.1 else c.1) := by
  cases k with
  | video c =>
    obtain ⟨rfl, a, rfl, rfl⟩ := h
    rcases video_frame true a ⟨time + f.ptsDelay, time, f.key, f.size, 0⟩ f.pieces l with ⟨h1, h2⟩ | ⟨a', x, conv, z, h1, h2, h3⟩
    · left; exact ⟨h1, a.conf, rfl, h2⟩
    · right
      refine ⟨.video a', [x], [(x.f, x.ws.flatten)], [], (x.f, x.ws.flatten), ?_, ⟨h3.pts, h3.dts, ?_⟩, rfl, ?_, ⟨rfl, a', rfl, h2⟩, ?_, fun _ => rfl, ?_, rfl, ?_⟩
      · rw [atomCalls_one]; exact h1
      · obtain ⟨a2, h4⟩ := h3.conv
        exact ⟨a2, conv, z, h4, h3.flat, h3.size, h3.none⟩
      · exact .cons (g := [(x.f, x.ws.flatten)]) (fs := []) ⟨by simp, by rintro c t hc; simp only [List.cons.injEq] at hc; rw [← hc.1], by simp, h3.fine hk⟩ (fun _ => rfl) .nil
      · have := h3.last
        cases l with
        | true => exact ⟨[], x, rfl, this, by simp⟩
        | false => simpa [Lasts] using this
      · simp [Atom.shape, Kind.plan, h3.last]
      · intro h; exact absurd rfl h
  | audio hh =>
    right
    obtain ⟨b, rfl, hb, hs⟩ := h
    rw [audio_calls]
    obtain ⟨o', xs, hxs, hne, hcs, hpts, hdts, hconv⟩ : ∃ (o' : OFrame) (xs : List (List UInt8)), (∀ x ∈ xs, x ≠ []) ∧ xs ≠ [] ∧
        (frameCalls time f l).flatMap (headerCalls hh) = [.start o'] ++ xs.map .write ++ [.flush l] ∧ o'.pts = time + f.ptsDelay ∧ o'.dts = time ∧
        Conv (.audio hh) f xs.flatten := by
      cases hh with
      | none =>
        refine ⟨⟨time + f.ptsDelay, time, f.key, f.size, 0⟩, f.pieces, hf.pieces, hf.some rfl, ?_, rfl, rfl, rfl⟩
        have : headerCalls none = fun c => [c] := rfl
        rw [this]
        simp [frameCalls]
      | some hd =>
        refine ⟨{ pts := time + f.ptsDelay, dts := time, key := f.key, size := f.size + 7, header := 0 + 1 }, hd.header (f.size + 7) :: f.pieces, ?_, by simp, ?_, rfl, rfl, by simp [Conv, InFrame.data]⟩
        · intro x hx
          rcases List.mem_cons.mp hx with rfl | hx
          · simp [AacConf.header]
          · exact hf.pieces x hx
        · have hw : ∀ ps : List (List UInt8), (ps.map Call.write).flatMap (headerCalls (some hd)) = ps.map .write := by
            intro ps
            induction ps with
            | nil => rfl
            | cons p ps ih => simp only [List.map_cons, List.flatMap_cons, ih]; rfl
          unfold frameCalls
          rw [List.flatMap_append, List.flatMap_append, hw]
          rfl
    rw [hcs]
    obtain ⟨b', as, g1, g2, h1, h2, h3, h4, h5, h6, h7, h8, h9, h10⟩ := audio_frame b g o' xs l hb hxs hne
    rw [h1]
    refine ⟨.audio hh b', as, g1, g2, (o', xs.flatten), rfl, ⟨hpts, hdts, hconv⟩, h3, h4, ⟨b', rfl, h5, h2.trans hs⟩, h6, h7, ?_, ?_, ?_⟩
    · rw [h8, hs]; rfl
    · rw [h9, hs]; rfl
    · intro hg x
      have h11 := h10 hg
      rw [hs] at h11
      obtain ⟨c, t, rfl⟩ := List.exists_cons_of_ne_nil hg
      rw [h5.cur c t rfl] at h11
      exact h11
  | id3 cc =>
    right
    obtain ⟨rfl, rfl⟩ := h
    rw [id3_calls]
    have hw : ∀ ps : List (List UInt8), (ps.map Call.write).flatMap id3Call = ps.map .write := by
      intro ps
      induction ps with
      | nil => rfl
      | cons p ps ih => simp only [List.map_cons, List.flatMap_cons, ih]; rfl
    refine ⟨.id3, [⟨⟨time + f.ptsDelay, time, f.key, f.size + 21, 0⟩, id3Header f.size :: f.pieces, l⟩], [(⟨time + f.ptsDelay, time, f.key, f.size + 21, 0⟩, id3Header f.size ++ f.data)], [],
      (⟨time + f.ptsDelay, time, f.key, f.size + 21, 0⟩, id3Header f.size ++ f.data), ?_, ⟨rfl, rfl, rfl⟩, rfl, ?_, ⟨rfl, rfl⟩, ?_, fun _ => rfl, ?_, rfl, ?_⟩
    · unfold frameCalls
      rw [List.flatMap_append, List.flatMap_append, hw, atomCalls_one]
      rfl
    · refine .cons (g := [(_, _)]) (fs := []) ⟨by simp, by rintro c t hc; simp only [List.cons.injEq] at hc; rw [← hc.1], by simp [InFrame.data], fun n _ => Fine.of_ne n _ ?_⟩ (fun _ => rfl) .nil
      intro x hx
      rcases List.mem_cons.mp hx with rfl | hx
      · simp [id3Header]
      · exact hf.pieces x hx
    · cases l with
      | true => exact ⟨[], _, rfl, rfl, by simp⟩
      | false => simp [Lasts]
    · simp [Atom.shape, Kind.plan, InFrame.data]
    · intro h; exact absurd rfl h

/-- What is buffered is flushed from outside. -/
theorem filt_flush (b : Buffer) (g : List Chunk) (hb : Between b g) :
    (b.forceFlush true false).2 = atomCalls (preAtoms g) ∧ Between (b.forceFlush true false).1 [] ∧ (b.forceFlush true false).1.size = b.size := by
  have hz := flat_ne g hb.ne
  unfold Buffer.forceFlush
  by_cases hg : g = []
  · subst hg
    rw [if_pos (by rw [hb.done]; rfl)]
    exact ⟨rfl, hb, rfl⟩
  · rw [if_neg (by rw [hb.done]; exact fun h0 => hg (hz.mp h0))]
    obtain ⟨c, t, rfl⟩ := List.exists_cons_of_ne_nil hg
    have hs := hb.state
    rw [if_neg (by simp)] at hs
    simp only [if_true, hs]
    refine ⟨?_, ⟨?_, rfl, by simp, by simp, by simp, by simp⟩, trivial⟩
    · rw [preAtoms, if_neg (by simp), atomCalls_one]
      simp only [Atom.calls, groupAtom, hb.cur c t rfl, hb.data, hb.done, firstOf]
      rw [List.take_of_length_le (Nat.le_refl _)]; rfl
    · show b.data.drop b.done = _
      rw [hb.data, hb.done, List.drop_of_length_le (Nat.le_refl _)]; rfl

theorem between_dts (b : Buffer) (g : List Chunk) (h : Between b g) : b.dts = g.head?.map fun c => c.1.dts := by
  unfold Buffer.dts
  rw [h.state]
  cases g with
  | nil => rfl
  | cons c t => simp [h.cur c t rfl]

end Verif.Mts
