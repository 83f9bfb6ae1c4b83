import Verif.TsNalProps
import Verif.TsNalStream

/-!
# C78: the frames of a video stream, C79: its parameter sets
-/

namespace Verif.TsKmp

open NalSpec (cut stream lengthed IsNal)

/-- The data of the frame of some NAL units. -/
def framed (c : Codec) (ns : List (List UInt8)) : List UInt8 := (ns.filter fun n => c.type n ∉ c.skip).flatMap lengthed

theorem frameData_is {c : Codec} {us : List Nalu} {ns : List (List UInt8)} (h : AllIs c us ns) : frameData c us = .ok (framed c ns) := by
  induction us generalizing ns with
  | nil =>
    cases ns with
    | nil => rfl
    | cons n ns => exact h.elim
  | cons u us ih =>
    cases ns with
    | nil => exact h.elim
    | cons n ns =>
      obtain ⟨h1, h2⟩ := h
      rw [frameData, ih h2, h1.type]
      by_cases hs : c.type n ∈ c.skip
      · rw [if_pos hs, framed, framed, List.filter_cons_of_neg (by simpa using hs)]
      · rw [if_neg hs, framed, framed, List.filter_cons_of_pos (by simpa using hs), takeN_is h1, h1.size]
        rfl

theorem any_is {c : Codec} {us : List Nalu} {ns : List (List UInt8)} (h : AllIs c us ns) :
    (us.any fun u => u.type ∈ c.idr) = ns.any fun n => c.type n ∈ c.idr := by
  induction us generalizing ns with
  | nil =>
    cases ns with
    | nil => rfl
    | cons n ns => exact h.elim
  | cons u us ih =>
    cases ns with
    | nil => exact h.elim
    | cons n ns =>
      obtain ⟨h1, h2⟩ := h
      rw [List.any_cons, List.any_cons, ih h2, h1.type]

/-- What becomes of a PES packet with the NAL units `ns`. -/
def videoNals (c : Codec) (t : Track) (ns : List (List UInt8)) (pts dts : Int) : Res Track :=
  handleAll c t ns >>= fun t =>
  if ns.length > maxNals then .err
  else mediaInfo c t >>= fun o =>
    match o with
    | none => .ok t
    | some t =>
      let k := t.clock.step dts
      .ok { t with clock := k, out := t.out ++ [.frame (ns.any fun n => c.type n ∈ c.idr) k.timestamp (int32 (pts - dts)) (framed c ns)] }

theorem videoPes_nals (c : Codec) (t : Track) (chain : Chain) (pts dts : Int) (hne : ∀ b ∈ chain, b ≠ []) :
    videoPes c t chain pts dts = videoNals c t (cut 0 none chain.flatten) pts dts := by
  rw [videoPes, videoNals]
  rcases nalus_cut c t chain hne with ⟨h1, h2⟩ | ⟨t', h1, h2, h3⟩ | ⟨t', us, h1, h2, h3, h4⟩
  · rw [h1, h2]
    rfl
  · rw [h1, h3, Res.bind_ok, if_pos h2]
    rfl
  · rw [h1, h3, Res.bind_ok, Res.bind_ok, if_neg (by omega)]
    simp only [frameData_is h4, any_is h4, Res.bind_ok]
    rfl

/-- C78, first part: what becomes of a PES packet depends on its bytes, and not on how they are divided into buffers, and is never undefined.
Missing: empty buffers. -/
theorem video_depends_on_the_bytes_partial (c : Codec) (t : Track) (a b : Chain) (pts dts : Int) (ha : ∀ x ∈ a, x ≠ []) (hb : ∀ x ∈ b, x ≠ [])
    (h : a.flatten = b.flatten) : videoPes c t a pts dts = videoPes c t b pts dts ∧ videoPes c t a pts dts ≠ .ub := by
  refine ⟨by rw [videoPes_nals c t a pts dts ha, videoPes_nals c t b pts dts hb, h], ?_⟩
  rw [videoPes_nals c t a pts dts ha, videoNals]
  cases hh : handleAll c t (cut 0 none a.flatten) with
  | ub => exact absurd hh (handleAll_no_ub _ _ _)
  | err => intro h; cases h
  | ok t' =>
    rw [Res.bind_ok]
    split
    · intro h; cases h
    · unfold mediaInfo
      split
      · intro h; cases h
      · split
        · intro h; cases h
        · split
          · intro h; cases h
          · intro h; cases h

/-- A NAL unit that is known already, or that is not kept. -/
def Known (c : Codec) (t : Track) (n : List UInt8) : Prop :=
  c.type n ∈ c.save → ∃ id, c.psId (n.take 128) = some id ∧ t.saved.find? (fun x => x.1 = id) = some (id, n)

theorem handle_known {c : Codec} {t : Track} {n : List UInt8} (h : Known c t n) :
    ∃ t', handle c t n = .ok t' ∧ t'.saved = t.saved ∧ t'.sent = t.sent ∧ t'.out = t.out ∧ t'.clock = t.clock ∧ t'.types = t.types := by
  have hsei : (seeSei c t n).saved = t.saved ∧ (seeSei c t n).sent = t.sent ∧ (seeSei c t n).out = t.out ∧ (seeSei c t n).clock = t.clock ∧ (seeSei c t n).types = t.types := by
    unfold seeSei
    split
    · split <;> exact ⟨rfl, rfl, rfl, rfl, rfl⟩
    · exact ⟨rfl, rfl, rfl, rfl, rfl⟩
  rw [handle]
  by_cases hs : c.type n ∈ c.save
  · obtain ⟨id, h1, h2⟩ := h hs
    refine ⟨seeSei c t n, ?_, hsei⟩
    rw [if_pos hs, keepPs, h1]
    simp only [hsei.1, h2, if_true]
  · exact ⟨seeSei c t n, by rw [if_neg hs], hsei⟩

theorem handleAll_known {c : Codec} {t : Track} {ns : List (List UInt8)} (h : ∀ n ∈ ns, Known c t n) :
    ∃ t', handleAll c t ns = .ok t' ∧ t'.saved = t.saved ∧ t'.sent = t.sent ∧ t'.out = t.out ∧ t'.clock = t.clock ∧ t'.types = t.types := by
  induction ns generalizing t with
  | nil => exact ⟨t, rfl, rfl, rfl, rfl, rfl, rfl⟩
  | cons n ns ih =>
    obtain ⟨t1, h1, a1, a2, a3, a4, a5⟩ := handle_known (h n (List.mem_cons_self ..))
    obtain ⟨t2, h2, b1, b2, b3, b4, b5⟩ := ih (t := t1) (fun m hm hs => by
      obtain ⟨id, c1, c2⟩ := h m (List.mem_cons_of_mem _ hm) hs
      exact ⟨id, c1, by rw [a1]; exact c2⟩)
    exact ⟨t2, by rw [handleAll, h1]; exact h2, b1.trans a1, b2.trans a2, b3.trans a3, b4.trans a4, b5.trans a5⟩

/-- C78: a PES packet with a byte stream of up to 16 NAL units becomes one frame: the NAL units other than parameter sets and delimiters,
in their order, each with its length, and a key frame exactly when one of them is an IDR picture, however the bytes are divided into buffers.
Missing: frames of more than 16 NAL units, zeros after the last NAL unit, empty buffers (see TsKmpCases). -/
theorem nal_units_become_frames_partial (c : Codec) (t : Track) (chain : Chain) (us : List (Nat × List UInt8)) (pts dts : Int)
    (hne : ∀ b ∈ chain, b ≠ []) (h : chain.flatten = stream us) (hus : ∀ u ∈ us, IsNal u.2) (hlen : us.length ≤ maxNals)
    (hsent : t.sent = true) (hknown : ∀ u ∈ us, Known c t u.2) :
    ∃ t', videoPes c t chain pts dts = .ok t' ∧ t'.sent = true ∧ t'.saved = t.saved ∧ t'.clock = t.clock.step dts ∧
      t'.out = t.out ++ [.frame (us.any fun u => c.type u.2 ∈ c.idr) (t.clock.step dts).timestamp (int32 (pts - dts))
        ((us.filter fun u => c.type u.2 ∉ c.skip).flatMap fun u => lengthed u.2)] := by
  rw [videoPes_nals c t chain pts dts hne, h, NalSpec.cut_stream us hus, videoNals]
  obtain ⟨t1, h1, a1, a2, a3, a4, _⟩ := handleAll_known (c := c) (t := t) (ns := us.map Prod.snd) (fun n hn => by
    obtain ⟨u, hu, rfl⟩ := List.mem_map.mp hn
    exact hknown u hu)
  rw [h1, Res.bind_ok, if_neg (by simp; omega), mediaInfo, if_pos (a2.trans hsent), Res.bind_ok]
  refine ⟨_, rfl, a2.trans hsent, a1, by rw [← a4], ?_⟩
  simp only [a3, a4, framed, List.any_map, List.filter_map, List.flatMap_map]
  rfl

end Verif.TsKmp
