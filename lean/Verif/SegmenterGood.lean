import Verif.SegmenterPush
import Verif.SegmenterCopy

/-!
# The log of a track, and what holds for a track of a channel
-/

namespace Verif.Segmenter

/-- The frames that an event accepts. -/
def Ev.accs : Ev → List In
  | .acc i => [i]
  | _ => []

/-- The frames that leave with an event. -/
def Ev.gone : Ev → List In
  | .seg _ src _ => src
  | .drop fs => fs
  | .reset fs => fs
  | _ => []

/-- The index of the segment of an event. -/
def Ev.index? : Ev → Option Nat
  | .seg j _ _ => some j
  | _ => none

/-- The id that is expected next, after an event. -/
def Ev.next (n : Nat) : Ev → Nat
  | .seg _ src _ => (src.getLast?.map (·.id + 1)).getD n
  | .drop fs => (fs.getLast?.map (·.id + 1)).getD n
  | .jump id => id
  | _ => n

/-- The frames of a log that were accepted, in order. -/
def accepted (log : List Ev) : List In := log.flatMap Ev.accs

/-- The frames of a log that went to a segment, or were dropped, in order. -/
def gone (log : List Ev) : List In := log.flatMap Ev.gone

/-- The indexes of the segments of a log. -/
def segIdx (log : List Ev) : List Nat := log.filterMap Ev.index?

/-- The id after the last frame that went to a segment or was disposed, or the id that was set after that. -/
def expected (log : List Ev) : Nat := log.foldl Ev.next 0

theorem segIdx_push (log : List Ev) (e : Ev) (h : e.index? = none) : segIdx (log ++ [e]) = segIdx log := by
  simp [segIdx, List.filterMap_append, h]

/-- A segment of a log is what it should be. -/
structure SegGood (lo k : Nat) (B : Prop) (media : Media) (j : Nat) (src : List In) (s : Segment) : Prop where
  lo : lo ≤ j
  hi : j < k
  nonempty : src ≠ []
  data : SegData src s
  key : media = .video → ∀ i ∈ src.head?, i.key = true
  times : B → SegTimes src s

/-- What holds for a track. `lo` and `k` bound the indexes of segments; `B` says that the distance of presentation and decode
times is small; `NS` that there are no subtitles. -/
structure Good (lo k : Nat) (B NS : Prop) (t : Track) : Prop where
  inv : TInv t
  cons : t.media ≠ .subtitle → accepted t.log = gone t.log ++ t.fs.map (·.i)
  segs : ∀ j src s, Ev.seg j src s ∈ t.log → SegGood lo k B t.media j src s
  order : (segIdx t.log).Pairwise (· < ·)
  near : B → t.shift ≤ 2 ^ 30 ∧ ∀ f ∈ t.fs, Near f.i
  nextId : t.media ≠ .subtitle → t.nextId = expected t.log
  nosub : NS → t.media ≠ .subtitle

theorem Good.mono {lo k k' : Nat} {B NS : Prop} {t : Track} (h : Good lo k B NS t) (hk : k ≤ k') : Good lo k' B NS t :=
  ⟨h.inv, h.cons, fun j src s hj => by
    have := h.segs j src s hj
    exact ⟨this.lo, Nat.lt_of_lt_of_le this.hi hk, this.nonempty, this.data, this.key, this.times⟩,
    h.order, h.near, h.nextId, h.nosub⟩

theorem good_state {lo k : Nat} {B NS : Prop} {t : Track} (h : Good lo k B NS t) (s : TState) : Good lo k B NS { t with state := s } :=
  ⟨tinv_state h.inv s, h.cons, h.segs, h.order, h.near, h.nextId, h.nosub⟩

theorem near_ins {fs gs : List Frame} (h : ∀ f ∈ fs, Near f.i) (hs : ∀ i ∈ gs.map (·.i), i ∈ fs.map (·.i)) : ∀ f ∈ gs, Near f.i := by
  intro f hf
  have := hs f.i (List.mem_map.2 ⟨f, hf, rfl⟩)
  obtain ⟨g, hg, e⟩ := List.mem_map.1 this
  rw [← e]; exact h g hg

/-- Frames are dropped. -/
theorem good_drop {lo k : Nat} {B NS : Prop} {t t' : Track} {n : Nat} (h : Good lo k B NS t) (hi : TInv t') (hk : Kept n true t t') :
    Good lo k B NS t' := by
  by_cases h0 : n = 0
  · subst h0
    have hl : t'.log = t.log := by rw [hk.log, if_neg (by simp)]
    have hf : t'.fs.map (·.i) = t.fs.map (·.i) := by rw [hk.ins, List.drop_zero]
    have hn : t'.nextId = t.nextId := by rw [hk.nextId]; simp
    refine ⟨hi, ?_, ?_, ?_, ?_, ?_, ?_⟩
    · rw [hk.media, hl, hf]; exact h.cons
    · rw [hk.media, hl]; exact h.segs
    · rw [hl]; exact h.order
    · intro b
      refine ⟨?_, near_ins (h.near b).2 (by rw [hf]; exact fun _ h => h)⟩
      have := (h.near b).1
      rcases hk.shift with e | e <;> omega
    · rw [hk.media, hl, hn]; exact h.nextId
    · rw [hk.media]; exact h.nosub
  · have hl : t'.log = t.log ++ [.drop ((t.fs.take n).map (·.i))] := by rw [hk.log, if_pos ⟨rfl, h0⟩]
    refine ⟨hi, ?_, ?_, ?_, ?_, ?_, ?_⟩
    · rw [hk.media, hl, hk.ins]
      intro hm
      have := h.cons hm
      simp only [accepted, gone, List.flatMap_append, List.flatMap_cons, List.flatMap_nil, Ev.accs, Ev.gone, List.append_nil] at this ⊢
      rw [this, List.append_assoc, ← List.map_append, List.take_append_drop]
    · rw [hk.media, hl]
      intro j src s hj
      refine h.segs j src s ?_
      simpa using hj
    · rw [hl, segIdx_push _ _ rfl]
      exact h.order
    · intro b
      refine ⟨?_, near_ins (h.near b).2 ?_⟩
      · have := (h.near b).1
        rcases hk.shift with e | e <;> omega
      · rw [hk.ins]
        intro i hi
        obtain ⟨f, hf, e⟩ := List.mem_map.1 hi
        exact List.mem_map.2 ⟨f, List.mem_of_mem_drop hf, e⟩
    · rw [hk.media, hl, hk.nextId]
      intro hm
      have := h.nextId hm
      simp only [expected, List.foldl_append, List.foldl_cons, List.foldl_nil, Ev.next] at this ⊢
      rw [← this]
      cases ((t.fs.take n).map (·.i)).getLast? <;> rfl
    · rw [hk.media]; exact h.nosub

/-- A segment is made and its frames are removed. -/
theorem good_seg {lo k : Nat} {B NS : Prop} {t t' : Track} {n rm : Nat} {s : Segment} {shift : Nat} (h : Good lo k B NS t) (hlo : lo ≤ k)
    (h0 : 0 < n) (hn : n ≤ t.fs.length) (hrm : t.media ≠ .subtitle → rm = n) (hi : TInv t')
    (hd : SegData ((t.fs.take n).map (·.i)) s)
    (ht : (∀ i ∈ (t.fs.take n).map (·.i), Near i) → t.shift ≤ 2 ^ 30 → shift ≤ 2 ^ 30 ∧ SegTimes ((t.fs.take n).map (·.i)) s)
    (hk : Kept rm false { t with shift, hasLast := true, log := t.log ++ [.seg k ((t.fs.take n).map (·.i)) s] } t') :
    Good lo (k + 1) B NS t' := by
  have hm : t'.media = t.media := hk.media
  have hl : t'.log = t.log ++ [.seg k ((t.fs.take n).map (·.i)) s] := by rw [hk.log, if_neg (by simp)]
  have hins : t'.fs.map (·.i) = (t.fs.drop rm).map (·.i) := hk.ins
  have hnear : B → ∀ i ∈ (t.fs.take n).map (·.i), Near i := by
    intro b i hi
    obtain ⟨f, hf, e⟩ := List.mem_map.1 hi
    rw [← e]
    exact (h.near b).2 f (List.mem_of_mem_take hf)
  refine ⟨hi, ?_, ?_, ?_, ?_, ?_, ?_⟩
  · rw [hm, hl, hins]
    intro hm
    have := h.cons hm
    simp only [accepted, gone, List.flatMap_append, List.flatMap_cons, List.flatMap_nil, Ev.accs, Ev.gone, List.append_nil] at this ⊢
    rw [this, hrm hm, List.append_assoc, ← List.map_append, List.take_append_drop]
  · rw [hm, hl]
    intro j src s' hj
    rcases List.mem_append.1 hj with hj | hj
    · have := h.segs j src s' hj
      exact ⟨this.lo, Nat.lt_succ_of_lt this.hi, this.nonempty, this.data, this.key, this.times⟩
    · have e := List.mem_singleton.1 hj
      cases e
      cases hfs : t.fs with
      | nil => rw [hfs] at hn; simp at hn; omega
      | cons f rest =>
        obtain ⟨m, rfl⟩ : ∃ m, n = m + 1 := ⟨n - 1, by omega⟩
        rw [hfs] at hd ht hnear
        refine ⟨hlo, Nat.lt_succ_self _, by simp, hd, ?_, fun b => (ht (hnear b) (h.near b).1).2⟩
        intro hv i hi
        simp only [List.take_succ_cons, List.map_cons, List.head?_cons, Option.mem_def, Option.some.injEq] at hi
        have := h.inv.head f (by rw [hfs]; rfl)
        unfold anchor at this
        rw [hv] at this
        simpa [← hi] using this
  · rw [hl]
    have : segIdx (t.log ++ [.seg k ((t.fs.take n).map (·.i)) s]) = segIdx t.log ++ [k] := by simp [segIdx, Ev.index?]
    rw [this, List.pairwise_append]
    refine ⟨h.order, List.pairwise_singleton _ _, ?_⟩
    intro a ha b hb
    rw [List.mem_singleton.1 hb]
    obtain ⟨e, he, hea⟩ := List.mem_filterMap.1 ha
    cases e with
    | seg j src s' =>
      simp only [Ev.index?, Option.some.injEq] at hea
      rw [← hea]
      exact (h.segs j src s' he).hi
    | _ => simp [Ev.index?] at hea
  · intro b
    refine ⟨?_, near_ins (h.near b).2 ?_⟩
    · have := (ht (hnear b) (h.near b).1).1
      have hs : t'.shift = shift ∨ t'.shift = 0 := hk.shift
      rcases hs with e | e <;> omega
    · rw [hins]
      intro i hi
      obtain ⟨f, hf, e⟩ := List.mem_map.1 hi
      exact List.mem_map.2 ⟨f, List.mem_of_mem_drop hf, e⟩
  · rw [hm, hl, hk.nextId]
    intro hm
    have := h.nextId hm
    simp only [expected, List.foldl_append, List.foldl_cons, List.foldl_nil, Ev.next] at this ⊢
    rw [← this, hrm hm]
    simp only [show Track.fs { t with shift, hasLast := true, log := t.log ++ [.seg k ((t.fs.take n).map (·.i)) s] } = t.fs from rfl]
    cases ((t.fs.take n).map (·.i)).getLast? <;> rfl
  · rw [hm]; exact h.nosub

/-- A frame is accepted. -/
theorem good_push {lo k : Nat} {B NS : Prop} {t t' : Track} {i : In} (h : Good lo k B NS t) (hi : TInv t') (hk : Pushed i t t')
    (hn : B → Near i) : Good lo k B NS t' := by
  refine ⟨hi, ?_, ?_, ?_, ?_, ?_, ?_⟩
  · rw [hk.media, hk.log, hk.ins]
    intro hm
    have := h.cons hm
    simp only [accepted, gone, List.flatMap_append, List.flatMap_cons, List.flatMap_nil, Ev.accs, Ev.gone, List.append_nil] at this ⊢
    rw [this, List.append_assoc]
  · rw [hk.media, hk.log]
    intro j src s hj
    refine h.segs j src s ?_
    simpa using hj
  · rw [hk.log, segIdx_push _ _ rfl]
    exact h.order
  · intro b
    refine ⟨by rw [hk.shift]; exact (h.near b).1, ?_⟩
    intro f hf
    have : f.i ∈ t'.fs.map (·.i) := List.mem_map.2 ⟨f, hf, rfl⟩
    rw [hk.ins] at this
    rcases List.mem_append.1 this with hm | hm
    · obtain ⟨g, hg, e⟩ := List.mem_map.1 hm
      rw [← e]; exact (h.near b).2 g hg
    · rw [List.mem_singleton.1 hm]; exact hn b
  · rw [hk.media, hk.log, hk.nextId]
    intro hm
    have := h.nextId hm
    simp only [expected, List.foldl_append, List.foldl_cons, List.foldl_nil, Ev.next] at this ⊢
    exact this
  · rw [hk.media]; exact h.nosub

/-- The pending frames are discarded. -/
theorem good_reset {lo k : Nat} {B NS : Prop} {t t' : Track} (h : Good lo k B NS t) (hi : TInv t') (hm : t'.media = t.media) (hf : t'.fs = [])
    (hl : t'.log = t.log ++ [.reset (t.fs.map (·.i))]) (hn : t'.nextId = t.nextId) (hs : t'.shift = t.shift) : Good lo k B NS t' := by
  refine ⟨hi, ?_, ?_, ?_, ?_, ?_, ?_⟩
  · rw [hm, hl, hf]
    intro hm
    have := h.cons hm
    simp only [accepted, gone, List.flatMap_append, List.flatMap_cons, List.flatMap_nil, Ev.accs, Ev.gone, List.append_nil, List.map_nil] at this ⊢
    exact this
  · rw [hm, hl]
    intro j src s hj
    refine h.segs j src s ?_
    simpa using hj
  · rw [hl, segIdx_push _ _ rfl]
    exact h.order
  · intro b
    refine ⟨by rw [hs]; exact (h.near b).1, ?_⟩
    rw [hf]; simp
  · rw [hm, hl, hn]
    intro hm
    have := h.nextId hm
    simp only [expected, List.foldl_append, List.foldl_cons, List.foldl_nil, Ev.next] at this ⊢
    exact this
  · rw [hm]; exact h.nosub

/-- The id that is expected next is set. -/
theorem good_jump {lo k : Nat} {B NS : Prop} {t : Track} (h : Good lo k B NS t) (n : Nat) :
    Good lo k B NS { t with nextId := n, log := t.log ++ [.jump n] } := by
  refine ⟨⟨h.inv.parts, h.inv.kparts, h.inv.count, h.inv.le, h.inv.start, h.inv.last, h.inv.head, h.inv.split, h.inv.pts, h.inv.keyPts,
    h.inv.kfs, h.inv.pending, h.inv.splitCount, h.inv.minSplit⟩, ?_, ?_, ?_, h.near, ?_, h.nosub⟩
  · intro hm
    have := h.cons hm
    simp only [accepted, gone, List.flatMap_append, List.flatMap_cons, List.flatMap_nil, Ev.accs, Ev.gone, List.append_nil] at this ⊢
    exact this
  · intro j src s hj
    refine h.segs j src s ?_
    simpa using hj
  · rw [segIdx_push _ _ rfl]
    exact h.order
  · intro _
    simp [expected, Ev.next]

/-- A new track. -/
theorem good_new (lo k : Nat) (B NS : Prop) (media : Media) (filler hasLast : Bool) (nextId : Nat) (hn : NS → media ≠ .subtitle) :
    Good lo k B NS { media, filler, hasLast, nextId, log := [.jump nextId] } := by
  refine ⟨⟨⟨by simp, by simp, by simp⟩, ⟨by simp, by simp, by simp⟩, rfl, by simp [Track.fs], by simp [Track.fs], by simp [Track.fs],
      by simp [Track.fs], by simp [Track.fs], by simp [Track.fs], by simp [Track.fs], ?_, rfl, rfl, rfl⟩, ?_, by simp, ?_, ?_, ?_, hn⟩
  · split
    · exact ⟨by simp [Track.fs, Track.ks, KfOk], rfl⟩
    · exact ⟨rfl, rfl⟩
  · intro _; rfl
  · exact List.Pairwise.nil
  · intro _; exact ⟨Nat.zero_le _, by simp [Track.fs]⟩
  · intro _; rfl

end Verif.Segmenter
