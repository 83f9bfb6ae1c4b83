import Verif.RtmpKmpProps
import Verif.RtmpLen
import Verif.KmpRtmpProps

/-!
# KMP to RTMP to KMP
-/

namespace Verif.RtmpKmpSpec

open Verif.KmpRtmp (Ev Frame)
open Verif.RtmpKmp (Bytes)

/-- The frames of a packet list: time, flags, delay, data. -/
def shown : List RtmpKmp.Out → List (Int × Nat × Int × Bytes)
  | [] => []
  | .frame f :: l => (f.dts, f.flags, f.pts, f.data) :: shown l
  | _ :: l => shown l

/-- The H.264 and H.265 frames of a stream that have data. -/
def videoFrames (n : Nat) : List Ev → List Frame
  | [] => []
  | .frame id codec f :: vs => (if id = n ∧ (codec = 7 ∨ codec = 8) ∧ f.data.flatten ≠ [] then [f] else []) ++ videoFrames n vs
  | _ :: vs => videoFrames n vs

/-- A frame as it should come out. -/
def same (scale : Nat) (f : Frame) : Int × Nat × Int × Bytes := (f.dts * scale, f.flags % 2, f.pts * scale, f.data.flatten)

/-- A message of RTMP that has something. -/
def Holds (video : Bool) (m : RtmpSpec.Mess) (y : Tag × Int) : Prop :=
  m.type = (if video then 9 else 8) ∧ (m.ts : Int) = y.2 % 2 ^ 32 ∧ readTag video m.payload = some y.1

def AllHold (video : Bool) : List RtmpSpec.Mess → List (Tag × Int) → Prop
  | [], [] => True
  | x :: xs, y :: ys => Holds video x y ∧ AllHold video xs ys
  | _, _ => False

/-- The times of those that have frames with data. -/
def fullTimes : List (Tag × Int) → List Int
  | [] => []
  | (.frame _ _ d, t) :: l => (if d = [] then [] else [t]) ++ fullTimes l
  | _ :: l => fullTimes l

end Verif.RtmpKmpSpec

namespace Verif.RtmpKmp

open Verif.RtmpSpec (Mess)
open Verif.Rtmp (Msg Cfg Run Waits newSess flatH)
open Verif.KmpRtmp (Ev Frame Env Connect)
open Verif.KmpRtmpSpec (Sp St act acts messages)
open Verif.RtmpKmpSpec

/-! ## Tags of the encoder -/

theorem avc_holds {packet : Nat} (hp : packet ≤ 1) (key : Bool) {delay : Int} (h1 : -2 ^ 23 ≤ delay) (h2 : delay < 2 ^ 23) (d : Bytes) :
    readTag true (KmpRtmpSpec.avcTag packet key delay ++ d) = some (if packet = 0 then .config d else .frame key delay d) := by
  obtain ⟨a, b, c, hs1, hs2⟩ := KmpRtmp.rd24_si24 h1 h2
  have hs3 : rd24 a b c = delay := hs2
  simp only [KmpRtmpSpec.avcTag, hs1, List.cons_append, List.nil_append, readTag, if_true, readVideo]
  obtain rfl | rfl : packet = 0 ∨ packet = 1 := by omega
  · cases key <;> simp
  · cases key <;> simp [hs3]

theorem hevc_holds {packet : Nat} (hp : packet ≤ 1) (key : Bool) {delay : Int} (h1 : -2 ^ 23 ≤ delay) (h2 : delay < 2 ^ 23) (d : Bytes) :
    readTag true (KmpRtmpSpec.hevcTag packet key delay ++ d) = some (if packet = 0 then .config d else .frame key delay d) := by
  obtain ⟨a, b, c, hs1, hs2⟩ := KmpRtmp.rd24_si24 h1 h2
  have hs3 : rd24 a b c = delay := hs2
  have ht : KmpRtmp.txt "hvc1" = [0x68, 0x76, 0x63, 0x31] := by decide +kernel
  simp only [KmpRtmpSpec.hevcTag, ht, List.cons_append, List.nil_append, readTag, if_true, readVideo]
  obtain rfl | rfl : packet = 0 ∨ packet = 1 := by omega
  · cases key <;> simp
  · cases key <;> simp [hs1, hs3]

/-- What the video messages of a stream have. -/
def sentVideo (n : Nat) : List Ev → List (Tag × Int)
  | [] => []
  | .start id m :: vs =>
    (match m.video with
      | some v => if id = n ∧ (v.codec = 7 ∨ v.codec = 8) then [(.config v.extra, 0)] else []
      | none => []) ++ sentVideo n vs
  | .frame id codec f :: vs => (if id = n ∧ (codec = 7 ∨ codec = 8) then [(.frame (f.flags % 2 == 1) f.pts f.data.flatten, f.dts)] else []) ++ sentVideo n vs
  | _ :: vs => sentVideo n vs

/-- The messages of a stream of some type. -/
def ofStream (n type : Nat) (ms : List Mess) : List Mess := ms.filter fun m => m.msid == n && m.type == type

theorem allHold_append {video : Bool} : ∀ {a : List Mess} {b : List (Tag × Int)} {c : List Mess} {d : List (Tag × Int)}, AllHold video a b → AllHold video c d → AllHold video (a ++ c) (b ++ d)
  | [], [], _, _, _, h => h
  | _ :: _, _ :: _, _, _, h, h' => ⟨h.1, allHold_append h.2 h'⟩
  | [], _ :: _, _, _, h, _ => h.elim
  | _ :: _, [], _, _, h, _ => h.elim

theorem ofStream_append (n type : Nat) (a b : List Mess) : ofStream n type (a ++ b) = ofStream n type a ++ ofStream n type b := by
  unfold ofStream; rw [List.filter_append]

theorem video_config_hold (n : Nat) (s : St) (v : KmpRtmp.Video) :
    AllHold true (ofStream n 9 (if v.codec = 7 then [⟨s.csid, 0, 9, s.id, KmpRtmpSpec.avcTag 0 true 0 ++ v.extra⟩]
      else if v.codec = 8 then [⟨s.csid, 0, 9, s.id, KmpRtmpSpec.hevcTag 0 true 0 ++ v.extra⟩] else []))
      (if s.id = n ∧ (v.codec = 7 ∨ v.codec = 8) then [(.config v.extra, 0)] else []) := by
  by_cases h7 : v.codec = 7
  · rw [if_pos h7]
    by_cases hn' : s.id = n
    · rw [if_pos ⟨hn', .inl h7⟩]
      simp only [ofStream, List.filter_cons, hn']
      simp only [beq_self_eq_true, Bool.and_self, if_true, List.filter_nil]
      exact ⟨⟨rfl, rfl, avc_holds (Nat.zero_le 1) true (by decide) (by decide) v.extra⟩, trivial⟩
    · rw [if_neg (fun hh => hn' hh.1)]
      simp [ofStream, hn', AllHold]
  · rw [if_neg h7]
    by_cases h8 : v.codec = 8
    · rw [if_pos h8]
      by_cases hn' : s.id = n
      · rw [if_pos ⟨hn', .inr h8⟩]
        simp only [ofStream, List.filter_cons, hn']
        simp only [beq_self_eq_true, Bool.and_self, if_true, List.filter_nil]
        exact ⟨⟨rfl, rfl, hevc_holds (Nat.zero_le 1) true (by decide) (by decide) v.extra⟩, trivial⟩
      · rw [if_neg (fun hh => hn' hh.1)]
        simp [ofStream, hn', AllHold]
    · have hc : ¬ (s.id = n ∧ (v.codec = 7 ∨ v.codec = 8)) := fun hh => hh.2.elim h7 h8
      rw [if_neg h8, if_neg hc]
      trivial

theorem configs_hold (n : Nat) (s : St) (m : KmpRtmp.Meta) : AllHold true (ofStream n 9 (KmpRtmpSpec.configs s m)) (sentVideo n [.start s.id m]) := by
  have e4 : ∀ (q : Prop) [Decidable q] (x : Mess), x.type ≠ 9 → ofStream n 9 (if q then [x] else []) = [] := by
    intro q _ x hx
    split
    · simp [ofStream, hx]
    · rfl
  obtain ⟨video, audio⟩ := m
  rcases audio with _ | a <;> rcases video with _ | v <;> simp only [KmpRtmpSpec.configs, sentVideo, ofStream_append, List.append_nil]
  · trivial
  · exact video_config_hold n s v
  · rw [e4 _ _ (by simp)]
    trivial
  · rw [e4 (a.codec = 1010) _ (by simp), List.append_nil]
    exact video_config_hold n s v

theorem act_video {e : Env} {p p' : Sp} {n : Nat} (_hn : 1 ≤ n) {v : Ev} {ms : List (Mess × Nat)} (h : act e p v = some (p', ms))
    (hpts : ∀ id codec f, v = .frame id codec f → -2 ^ 23 ≤ f.pts ∧ f.pts < 2 ^ 23) : AllHold true (ofStream n 9 (ms.map (·.1))) (sentVideo n [v]) := by
  cases v with
  | publish name =>
    simp only [act, Option.some.injEq, Prod.mk.injEq] at h
    obtain ⟨-, rfl⟩ := h
    simp [ofStream, KmpRtmpSpec.command, sentVideo, AllHold]
  | sound id codec rate bits channels =>
    simp only [act] at h
    cases hf : p.find id with
    | none => rw [hf] at h; simp at h
    | some s =>
      rw [hf] at h
      simp only [Option.some.injEq, Prod.mk.injEq] at h
      obtain ⟨-, rfl⟩ := h
      simp [ofStream, sentVideo, AllHold]
  | unpublish id =>
    simp only [act] at h
    cases hf : p.find id with
    | none => rw [hf] at h; simp at h
    | some s =>
      rw [hf] at h
      simp only [Option.some.injEq, Prod.mk.injEq] at h
      obtain ⟨-, rfl⟩ := h
      simp [ofStream, KmpRtmpSpec.command, sentVideo, AllHold]
  | start id m =>
    simp only [act] at h
    cases hf : p.find id with
    | none => rw [hf] at h; simp at h
    | some s =>
      rw [hf] at h
      simp only [] at h
      have hid := (KmpRtmp.sp_find hf).2
      by_cases hst : s.started = true
      · rw [if_pos hst] at h; simp at h
      · rw [if_neg hst] at h
        simp only [Option.some.injEq, Prod.mk.injEq] at h
        obtain ⟨-, rfl⟩ := h
        simp only [List.map_cons, List.map_map, sentVideo, List.append_nil]
        have e2 : ((fun x : Mess × Nat => x.1) ∘ fun x : Mess => (x, 0)) = _root_.id := rfl
        rw [e2, List.map_id]
        have e3 : ∀ (m : Mess) (l : List Mess), m.type ≠ 9 → ofStream n 9 (m :: l) = ofStream n 9 l := by
          intro m l hm
          unfold ofStream
          rw [List.filter_cons_of_neg (by simp [hm])]
        rw [e3 _ _ (by simp)]
        rw [← hid]
        have := configs_hold n s m
        simp only [sentVideo, List.append_nil] at this
        exact this
  | frame id codec f =>
    obtain ⟨p1, p2⟩ := hpts id codec f rfl
    simp only [act] at h
    cases hf : p.find id with
    | none => rw [hf] at h; simp at h
    | some s =>
      rw [hf] at h
      simp only [] at h
      have hid := (KmpRtmp.sp_find hf).2
      have hts : (((f.dts % 2 ^ 32).toNat : Nat) : Int) = f.dts % 2 ^ 32 := Int.toNat_of_nonneg (by omega)
      cases ht : KmpRtmpSpec.frameTag s.sound codec f with
      | none => rw [ht] at h; simp at h
      | some tt =>
        obtain ⟨type, tag⟩ := tt
        rw [ht] at h
        simp only [] at h
        by_cases hst : s.started = true
        · rw [if_pos hst] at h
          simp only [Option.some.injEq, Prod.mk.injEq] at h
          obtain ⟨-, rfl⟩ := h
          have hrest : ∀ (q : Prop) [Decidable q] (x : Mess × Nat), x.1.type ≠ 9 → ofStream n 9 ((if q then [x] else []).map (·.1)) = [] := by
            intro q _ x hx
            split
            · simp [ofStream, hx]
            · rfl
          have hcons : ∀ (m : Mess) (l : List Mess), ofStream n 9 (m :: l) = ofStream n 9 [m] ++ ofStream n 9 l := fun m l => ofStream_append n 9 [m] l
          rw [List.map_cons, hcons, hrest _ _ (by simp), List.append_nil, hid]
          simp only [sentVideo, List.append_nil]
          unfold KmpRtmpSpec.frameTag at ht
          by_cases h7 : codec = 7
          · rw [if_pos h7] at ht
            simp only [Option.some.injEq, Prod.mk.injEq] at ht
            obtain ⟨rfl, rfl⟩ := ht
            by_cases hn' : id = n
            · rw [if_pos ⟨hn', .inl h7⟩]
              simp only [ofStream, List.filter_cons, hn']
              simp only [beq_self_eq_true, Bool.and_self, if_true, List.filter_nil]
              exact ⟨⟨rfl, hts, avc_holds (Nat.le_refl 1) _ p1 p2 _⟩, trivial⟩
            · rw [if_neg (fun hh => hn' hh.1)]
              simp [ofStream, hn', AllHold]
          · rw [if_neg h7] at ht
            by_cases h8 : codec = 8
            · rw [if_pos h8] at ht
              simp only [Option.some.injEq, Prod.mk.injEq] at ht
              obtain ⟨rfl, rfl⟩ := ht
              by_cases hn' : id = n
              · rw [if_pos ⟨hn', .inr h8⟩]
                simp only [ofStream, List.filter_cons, hn']
                simp only [beq_self_eq_true, Bool.and_self, if_true, List.filter_nil]
                exact ⟨⟨rfl, hts, hevc_holds (Nat.le_refl 1) _ p1 p2 _⟩, trivial⟩
              · rw [if_neg (fun hh => hn' hh.1)]
                simp [ofStream, hn', AllHold]
            · rw [if_neg h8] at ht
              rw [if_neg (fun hh => hh.2.elim h7 h8)]
              have : type = 8 := by
                split at ht
                · simp only [Option.some.injEq, Prod.mk.injEq] at ht; exact ht.1.symm
                · split at ht
                  · simp only [Option.some.injEq, Prod.mk.injEq] at ht; exact ht.1.symm
                  · simp at ht
              simp [ofStream, this, AllHold]
        · rw [if_neg hst] at h; simp at h

theorem sentVideo_cons (n : Nat) (v : Ev) (vs : List Ev) : sentVideo n (v :: vs) = sentVideo n [v] ++ sentVideo n vs := by
  cases v <;> simp [sentVideo]

theorem acts_video {e : Env} {n : Nat} (hn : 1 ≤ n) : ∀ (vs : List Ev) {p : Sp} {ms : List (Mess × Nat)}, acts e p vs = some ms →
    (∀ id codec f, Ev.frame id codec f ∈ vs → -2 ^ 23 ≤ f.pts ∧ f.pts < 2 ^ 23) → AllHold true (ofStream n 9 (ms.map (·.1))) (sentVideo n vs) := by
  intro vs
  induction vs with
  | nil =>
    intro p ms h _
    simp only [acts, Option.some.injEq] at h
    subst h
    trivial
  | cons v vs ih =>
    intro p ms h hpts
    unfold acts at h
    cases ha : act e p v with
    | none => rw [ha] at h; simp at h
    | some x =>
      obtain ⟨p', m1⟩ := x
      rw [ha] at h
      simp only [] at h
      cases hb : acts e p' vs with
      | none => rw [hb] at h; simp at h
      | some m2 =>
        rw [hb] at h
        simp only [Option.some.injEq] at h
        subst h
        rw [List.map_append, ofStream_append, sentVideo_cons]
        exact allHold_append (act_video hn ha (fun id codec f hv => hpts id codec f (by rw [hv]; exact List.mem_cons_self))) (ih hb (fun id codec f hv => hpts id codec f (List.mem_cons_of_mem _ hv)))

/-! ## Items -/

/-- What the items say. -/
def says (ys : List Item) : List (Tag × Int) := ys.map fun y => (y.tag, y.time)

/-- The messages that were received carry what the messages hold. -/
theorem carry_of_hold {video : Bool} {timescale : Nat} {k : Codec} (hk : Fits k) : ∀ (xs : List Input) (L : List (Tag × Int)),
    (∀ x ∈ xs, x.codec = some k ∧ x.msg.mlen = x.msg.data.flatten.length ∧ x.msg.mlen < 2 ^ 32) → AllHold video (xs.map fun x => x.msg.flat) L →
    ∃ ys, AllCarry video timescale xs ys ∧ says ys = L ∧ ∀ y ∈ ys, y.info = infoOf video timescale k := by
  intro xs
  induction xs with
  | nil =>
    intro L _ h
    cases L with
    | nil => exact ⟨[], trivial, rfl, by simp⟩
    | cons => exact h.elim
  | cons x xs ih =>
    intro L hx h
    cases L with
    | nil => exact h.elim
    | cons y L =>
      obtain ⟨⟨h1, h2, h3⟩, hr⟩ := h
      obtain ⟨ys, a, b, c⟩ := ih L (fun z hz => hx z (List.mem_cons_of_mem _ hz)) hr
      obtain ⟨c1, c2, c3⟩ := hx x List.mem_cons_self
      refine ⟨⟨y.1, y.2, infoOf video timescale k, x.created⟩ :: ys, ⟨⟨h1, h2, c2, c3, h3, rfl, k, c1, hk, rfl⟩, a⟩, by simp [says, ← b], ?_⟩
      intro z hz
      rcases List.mem_cons.1 hz with rfl | hz
      · rfl
      · exact c z hz

theorem times_says : ∀ (ys : List Item), times ys = fullTimes (says ys) := by
  intro ys
  induction ys with
  | nil => rfl
  | cons y ys ih =>
    cases hy : y.tag with
    | config d =>
      have hf : y.full = false := by unfold Item.full; rw [hy]
      have : times (y :: ys) = times ys := by simp [times, hf]
      rw [this, ih]
      simp [says, fullTimes, hy]
    | frame key delay d =>
      by_cases hd : d = []
      · have hf : y.full = false := by unfold Item.full; rw [hy]; simp [hd]
        have : times (y :: ys) = times ys := by simp [times, hf]
        rw [this, ih]
        simp [says, fullTimes, hy, hd]
      · have hf : y.full = true := by unfold Item.full; rw [hy]; simp [hd]
        have : times (y :: ys) = y.time :: times ys := by simp [times, hf]
        rw [this, ih]
        simp [says, fullTimes, hy, hd]

/-- The frames that are said. -/
def saidFrames (scale : Nat) : List (Tag × Int) → List (Int × Nat × Int × Bytes)
  | [] => []
  | (.frame key delay d, t) :: l => (if d = [] then [] else [(t * scale, if key then 1 else 0, delay * scale, d)]) ++ saidFrames scale l
  | _ :: l => saidFrames scale l

theorem shown_append : ∀ (a b : List Out), shown (a ++ b) = shown a ++ shown b
  | [], b => rfl
  | .frame f :: a, b => by simp [shown, shown_append a b]
  | .info _ _ :: a, b => by simp [shown, shown_append a b]
  | .publish :: a, b => by simp [shown, shown_append a b]

theorem shown_packets (scale : Nat) : ∀ (ys : List Item) (s : Said), shown (packets scale s ys ((times ys).map (· * (scale : Int)))) = saidFrames scale (says ys) := by
  intro ys
  induction ys with
  | nil => intro s; rfl
  | cons y ys ih =>
    intro s
    unfold packets
    cases hy : y.tag with
    | config d =>
      have hf : y.full = false := by unfold Item.full; rw [hy]
      have : times (y :: ys) = times ys := by simp [times, hf]
      rw [this]
      simp only [ih]
      simp [says, saidFrames, hy]
    | frame key delay d =>
      by_cases hd : d = []
      · have hf : y.full = false := by unfold Item.full; rw [hy]; simp [hd]
        have : times (y :: ys) = times ys := by simp [times, hf]
        rw [this]
        simp only [if_pos hd, ih]
        simp [says, saidFrames, hy, hd]
      · have hf : y.full = true := by unfold Item.full; rw [hy]; simp [hd]
        have : times (y :: ys) = y.time :: times ys := by simp [times, hf]
        rw [this]
        simp only [if_neg hd, List.map_cons, List.headD_cons, List.tail_cons, shown_append, ih]
        have e1 : shown (if s.told = true then [] else [.info y.info s.extra]) = [] := by split <;> rfl
        have e2 : shown (if s.published = true then [] else [.publish]) = [] := by split <;> rfl
        rw [e1, e2]
        simp [says, saidFrames, hy, hd, shown]

theorem sent_frames (scale n : Nat) : ∀ (vs : List Ev), saidFrames scale (sentVideo n vs) = (videoFrames n vs).map (same scale) := by
  intro vs
  induction vs with
  | nil => rfl
  | cons v vs ih =>
    cases v with
    | publish => exact ih
    | sound => exact ih
    | unpublish => exact ih
    | start id m =>
      simp only [sentVideo, videoFrames]
      cases m.video with
      | none => exact ih
      | some v =>
        simp only []
        split
        · exact ih
        · exact ih
    | frame id codec f =>
      simp only [sentVideo, videoFrames]
      by_cases h : id = n ∧ (codec = 7 ∨ codec = 8)
      · rw [if_pos h]
        simp only [List.cons_append, List.nil_append, saidFrames, ih]
        by_cases hd : f.data.flatten = []
        · have hc : ¬ (id = n ∧ (codec = 7 ∨ codec = 8) ∧ f.data.flatten ≠ []) := fun hh => hh.2.2 hd
          rw [if_pos hd, if_neg hc]
          rfl
        · have hc : id = n ∧ (codec = 7 ∨ codec = 8) ∧ f.data.flatten ≠ [] := ⟨h.1, h.2, hd⟩
          rw [if_neg hd, if_pos hc]
          have : (if (f.flags % 2 == 1) = true then 1 else 0) = f.flags % 2 := by
            rcases Nat.mod_two_eq_zero_or_one f.flags with h | h <;> simp [h]
          rw [this]
          rfl
      · rw [if_neg h, if_neg (fun hh => h ⟨hh.1, hh.2.1⟩)]
        exact ih

theorem sent_times (n : Nat) : ∀ (vs : List Ev), fullTimes (sentVideo n vs) = (videoFrames n vs).map (·.dts) := by
  intro vs
  induction vs with
  | nil => rfl
  | cons v vs ih =>
    cases v with
    | publish => exact ih
    | sound => exact ih
    | unpublish => exact ih
    | start id m =>
      simp only [sentVideo, videoFrames]
      cases m.video with
      | none => exact ih
      | some v =>
        simp only []
        split
        · exact ih
        · exact ih
    | frame id codec f =>
      simp only [sentVideo, videoFrames]
      by_cases h : id = n ∧ (codec = 7 ∨ codec = 8)
      · rw [if_pos h]
        simp only [List.cons_append, List.nil_append, fullTimes, ih]
        by_cases hd : f.data.flatten = []
        · have hc : ¬ (id = n ∧ (codec = 7 ∨ codec = 8) ∧ f.data.flatten ≠ []) := fun hh => hh.2.2 hd
          rw [if_pos hd, if_neg hc]
          rfl
        · have hc : id = n ∧ (codec = 7 ∨ codec = 8) ∧ f.data.flatten ≠ [] := ⟨h.1, h.2, hd⟩
          rw [if_neg hd, if_pos hc]
          rfl
      · rw [if_neg h, if_neg (fun hh => h ⟨hh.1, hh.2.1⟩)]
        exact ih

/-- **C117** (part). Frames that are sent to an RTMP server and come back to KMP are the same, in ticks of the new track. Missing: what C112 and C114 miss. -/
theorem trip_partial {e : Env} (he : KmpRtmp.EnvOk e) (cn : Connect) {g : Cfg} {size period n : Nat} {vs : List Ev} {ms : List (Mess × Nat)} (h1 : 128 ≤ size)
    (h2 : size ≤ 10485760) (hv : ∀ v ∈ vs, KmpRtmp.EvOk v) (hp : KmpRtmp.published vs ≤ 60) (hid : KmpRtmp.published vs + 3 < g.maxStreams)
    (hm : messages e cn size period vs = some ms) (hl : ∀ x ∈ ms, x.1.payload.length < 2 ^ 24 ∧ x.1.payload.length ≤ g.maxMessage) (hn : 1 ≤ n)
    (hpts : ∀ id codec f, Ev.frame id codec f ∈ vs → -2 ^ 23 ≤ f.pts ∧ f.pts < 2 ^ 23) (hst : Steady ((videoFrames n vs).map (·.dts)))
    {A : List (Tag × Int)} (hA : AllHold false (ofStream n 8 (ms.map (·.1))) A) (hA' : Steady (fullTimes A))
    {c : Conf} (hs : c.timescale / 1000 ≤ 255) {k : Codec} (hk : Fits k) :
    ∃ cc, KmpRtmp.session e cn size period vs = .ok cc ∧
      ∀ s, Run g (flatH KmpRtmpSpec.ctl) (newSess g .off) cc.out s → Waits s → ∀ xs : List Input, xs.map (·.msg) = s.log.filter (fun m => m.msid == n) →
        (∀ x ∈ xs, x.codec = some k) → ∃ st, avs c {} xs = .ok st ∧ shown st.videoOut = (videoFrames n vs).map (same (c.timescale / 1000)) := by
  obtain ⟨cc, c1, -, c3⟩ := KmpRtmp.received_partial he cn h1 h2 hv hp hid hm hl
  refine ⟨cc, c1, fun s hr hw xs hxs hxk => ?_⟩
  have hlog := c3 s hr hw
  have hmsg : ∀ x ∈ xs, x.msg ∈ s.log := by
    intro x hx
    have : x.msg ∈ xs.map (·.msg) := List.mem_map_of_mem hx
    rw [hxs] at this
    exact (List.mem_filter.1 this).1
  have hlen : ∀ x ∈ xs, x.codec = some k ∧ x.msg.mlen = x.msg.data.flatten.length ∧ x.msg.mlen < 2 ^ 32 := by
    intro x hx
    obtain ⟨-, m2, m3⟩ := Rtmp.mlen_mod hr x.msg (hmsg x hx)
    have : x.msg.flat ∈ ms.map (·.1) := by rw [← hlog]; exact List.mem_map_of_mem (hmsg x hx)
    obtain ⟨y, hy, hy'⟩ := List.mem_map.1 this
    have hyl := (hl y hy).1
    rw [hy'] at hyl
    have hyl' : x.msg.data.flatten.length < 2 ^ 24 := hyl
    exact ⟨hxk x hx, by omega, by omega⟩
  have hof : ∀ type, ofStream n type (ms.map (·.1)) = (xs.filter fun x => x.msg.type == type).map fun x => x.msg.flat := by
    intro type
    rw [← hlog]
    unfold ofStream
    rw [List.filter_map]
    have e1 : (fun x : Input => x.msg.flat) = Msg.flat ∘ (fun x : Input => x.msg) := rfl
    rw [e1, ← List.map_map]
    have e2 : (xs.filter fun x => x.msg.type == type).map (fun x => x.msg) = (xs.map (·.msg)).filter fun m => m.type == type := by
      rw [List.filter_map]; rfl
    rw [e2, hxs, List.filter_filter]
    refine congrArg (List.map _) (List.filter_congr fun m _ => ?_)
    simp only [Function.comp, Rtmp.Msg.flat]
    exact Bool.and_comm _ _
  have hvid : AllHold true (ofStream n 9 (ms.map (·.1))) (sentVideo n vs) := by
    unfold messages at hm
    cases ha : acts e { period } vs with
    | none => rw [ha] at hm; simp at hm
    | some m2 =>
      rw [ha] at hm
      simp only [Option.map_some, Option.some.injEq] at hm
      subst hm
      have hn0 : n ≠ 0 := by omega
      have := acts_video hn vs ha hpts
      simp only [List.map_cons]
      unfold ofStream at this ⊢
      rw [List.filter_cons_of_neg (by simp [KmpRtmpSpec.connectMess, KmpRtmpSpec.command]), List.filter_cons_of_neg (by simp [KmpRtmpSpec.sizeMess])]
      exact this
  rw [hof] at hvid hA
  obtain ⟨vids, v1, v2, -⟩ := carry_of_hold (timescale := c.timescale) hk _ _ (fun x hx => hlen x (List.mem_filter.1 hx).1) hvid
  obtain ⟨auds, a1, a2, -⟩ := carry_of_hold (timescale := c.timescale) hk _ _ (fun x hx => hlen x (List.mem_filter.1 hx).1) hA
  obtain ⟨st, s1, s2, -⟩ := stream_run hs v1 a1 (by rw [times_says, v2, sent_times]; exact hst) (by rw [times_says, a2]; exact hA')
  refine ⟨st, s1, ?_⟩
  rw [s2, shown_packets, v2, sent_frames]

end Verif.RtmpKmp
