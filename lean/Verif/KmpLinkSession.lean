import Verif.KmpLink

/-!
# One connection of a link (lemmas for C23)
-/

namespace Verif.KmpLink

open Verif.KmpIn (field Packet Event Rc App Pieces frames frames_append frames_one delivered Delivered Whole Splits Valid
  ptype hsize dsize Unfinished Bad)
open Verif.KmpOut (Packet.bytes stream head infoOf Sendable connectPacket)
open Verif.KmpInAck (bytesOf bytesOf_length)

/-! ## Specification: the frames that were written -/

/-- The frame events of the packets, numbered from `id`. -/
def numbered (id : Nat) : List Packet → List Event
  | [] => []
  | p :: ps => if p.isFrame then p.event id :: numbered (id + 1) ps else numbered id ps

/-- The packet `p` behind the packets `pre` is a frame that must get to the application, when connections started at
the ids `starts`: it has data, and there is media info before it; a subtitle frame has a duration; a video frame is a
key frame, or for every connection that started at or before it, there was a key frame on this connection since the
media info. -/
def Due (first : Nat) (starts : List Nat) (pre : List Packet) (p : Packet) : Prop :=
  p.isFrame ∧ dsize p.raw ≠ 0 ∧
  ∃ before info after, pre = before ++ info :: after ∧ info.isInfo ∧ (∀ q ∈ after, ¬ q.isInfo) ∧
    (info.media = 2 → 0 < field (p.body.take 24) 20 4 ∧ field (p.body.take 24) 20 4 < 2 ^ 31) ∧
    (info.media = 0 → ∀ N ∈ starts, N ≤ first + frames pre → p.isKey ∨
      ∃ b q c, after = b ++ q :: c ∧ q.isKey ∧ N ≤ first + frames (before ++ info :: b))

/-! ## Lemmas on numbers -/

theorem event_id (p : Packet) (id : Nat) : eventId (p.event id) = id := rfl

theorem numbered_append : ∀ (a b : List Packet) (id : Nat), numbered id (a ++ b) = numbered id a ++ numbered (id + frames a) b
  | [], b, id => by rw [List.nil_append]; rfl
  | p :: a, b, id => by
    have hf : frames (p :: a) = (if p.isFrame then 1 else 0) + frames a := by
      rw [← List.singleton_append, frames_append, frames_one]
    rw [List.cons_append, numbered, numbered, hf]
    split
    · rw [numbered_append a b, List.cons_append, Nat.add_assoc]
    · rw [numbered_append a b, Nat.zero_add]

theorem numbered_one (p : Packet) (id : Nat) : numbered id [p] = if p.isFrame then [p.event id] else [] := rfl

theorem mem_numbered {e : Event} : ∀ {L : List Packet} {id : Nat}, e ∈ numbered id L →
    ∃ a p b, L = a ++ p :: b ∧ p.isFrame ∧ e = p.event (id + frames a)
  | [], _, h => nomatch h
  | p :: L, id, h => by
    rw [numbered] at h
    have hf : ∀ a, frames (p :: a) = (if p.isFrame then 1 else 0) + frames a := by
      intro a; rw [← List.singleton_append, frames_append, frames_one]
    by_cases hp : p.isFrame
    · rw [if_pos hp] at h
      rcases List.mem_cons.1 h with h | h
      · exact ⟨[], p, L, rfl, hp, h⟩
      · obtain ⟨a, q, b, e1, e2, e3⟩ := mem_numbered h
        refine ⟨p :: a, q, b, by rw [e1]; rfl, e2, ?_⟩
        rw [e3, hf, if_pos hp, Nat.add_assoc]
    · rw [if_neg hp] at h
      obtain ⟨a, q, b, e1, e2, e3⟩ := mem_numbered h
      refine ⟨p :: a, q, b, by rw [e1]; rfl, e2, ?_⟩
      rw [e3, hf, if_neg hp, Nat.zero_add]

theorem numbered_mem {a b : List Packet} {p : Packet} {id : Nat} (h : p.isFrame) :
    p.event (id + frames a) ∈ numbered id (a ++ p :: b) := by
  rw [numbered_append, numbered, if_pos h]
  exact List.mem_append_right _ (List.mem_cons_self ..)

theorem numbered_range {L : List Packet} {id : Nat} {e : Event} (h : e ∈ numbered id L) :
    id ≤ eventId e ∧ eventId e < id + frames L := by
  obtain ⟨a, p, b, e1, e2, e3⟩ := mem_numbered h
  rw [e3, event_id, e1, frames_append, ← List.singleton_append, frames_append, frames_one, if_pos e2]
  omega

/-- In order of the ids. -/
def Sorted (l : List Event) : Prop := l.Pairwise (fun a b => eventId a < eventId b)

theorem numbered_sorted : ∀ (L : List Packet) (id : Nat), Sorted (numbered id L)
  | [], _ => List.Pairwise.nil
  | p :: L, id => by
    rw [numbered]
    split
    · refine List.Pairwise.cons (fun e he => ?_) (numbered_sorted L _)
      have := (numbered_range he).1
      rw [event_id]; omega
    · exact numbered_sorted L _

theorem frames_prefix {a b : List Packet} (h : a <+: b) : frames a ≤ frames b := by
  obtain ⟨c, rfl⟩ := h
  rw [frames_append]; omega

theorem sorted_split : ∀ {l : List Event}, Sorted l → ∀ N : Nat,
    l.filter (fun e => decide (eventId e < N)) ++ l.filter (fun e => decide (N ≤ eventId e)) = l
  | [], _, _ => rfl
  | e :: l, h, N => by
    have hc := List.pairwise_cons.1 h
    by_cases he : eventId e < N
    · rw [List.filter_cons_of_pos (by simpa using he), List.filter_cons_of_neg (by simpa using he), List.cons_append,
        sorted_split hc.2 N]
    · have hnil : l.filter (fun e => decide (eventId e < N)) = [] := by
        rw [List.filter_eq_nil_iff]
        intro x hx hlt
        have := hc.1 x hx
        have hlt : eventId x < N := of_decide_eq_true hlt
        omega
      have hall : l.filter (fun e => decide (N ≤ eventId e)) = l := by
        rw [List.filter_eq_self]
        intro x hx
        have := hc.1 x hx
        exact decide_eq_true (by omega)
      rw [List.filter_cons_of_neg (by simpa using he), hnil, List.filter_cons_of_pos (by simpa using he), hall, List.nil_append]

/-! ## Frames of a connection -/

theorem mem_delivered {f s : Nat} {w : Bool} {e : Event} : ∀ {L pre : List Packet}, e ∈ delivered f s w pre L →
    ∃ a p b, L = a ++ p :: b ∧ Delivered s w (pre ++ a) p ∧ e = p.event ((f + frames (pre ++ a)) % 2 ^ 64)
  | [], _, h => by rw [delivered] at h; exact nomatch h
  | p :: L, pre, h => by
    rw [delivered] at h
    rcases List.mem_append.1 h with h | h
    · by_cases hd : Delivered s w pre p
      · rw [if_pos hd] at h
        rw [List.mem_singleton] at h
        exact ⟨[], p, L, rfl, by rw [List.append_nil]; exact hd, by rw [List.append_nil]; exact h⟩
      · rw [if_neg hd] at h; exact nomatch h
    · obtain ⟨a, q, b, e1, e2, e3⟩ := mem_delivered h
      refine ⟨p :: a, q, b, by rw [e1]; rfl, ?_, ?_⟩
      · rw [List.append_assoc] at e2; exact e2
      · rw [List.append_assoc] at e3; exact e3

theorem delivered_append {f s : Nat} {w : Bool} : ∀ (a b pre : List Packet),
    delivered f s w pre (a ++ b) = delivered f s w pre a ++ delivered f s w (pre ++ a) b
  | [], b, pre => by rw [List.nil_append, delivered, List.nil_append, List.append_nil]
  | p :: a, b, pre => by
    rw [List.cons_append, delivered, delivered, delivered_append a b, List.append_assoc pre, List.append_assoc]
    rfl

theorem delivered_mem {f s : Nat} {w : Bool} {a b : List Packet} {p : Packet} (h : Delivered s w a p) :
    p.event ((f + frames a) % 2 ^ 64) ∈ delivered f s w [] (a ++ p :: b) := by
  rw [delivered_append, List.nil_append, delivered, if_pos h]
  exact List.mem_append_right _ (List.mem_append_left _ (List.mem_singleton.2 rfl))

theorem delivered_sub {f s : Nat} {w : Bool} : ∀ (L pre : List Packet), f + frames (pre ++ L) < 2 ^ 64 →
    (delivered f s w pre L).Sublist ((numbered (f + frames pre) L).filter (fun e => decide (f + s ≤ eventId e)))
  | [], _, _ => by rw [delivered]; exact List.nil_sublist _
  | p :: L, pre, hb => by
    have hpre : frames pre ≤ frames (pre ++ p :: L) := frames_prefix (List.prefix_append ..)
    have ih := delivered_sub (f := f) (s := s) (w := w) L (pre ++ [p]) (by rw [List.append_assoc]; exact hb)
    rw [delivered, numbered]
    rw [frames_append, frames_one] at ih
    by_cases hf : p.isFrame
    · rw [if_pos hf] at ih ⊢
      by_cases hd : Delivered s w pre p
      · have hs := hd.2.1
        rw [if_pos hd, Nat.mod_eq_of_lt (by omega), List.filter_cons_of_pos (by rw [event_id]; exact decide_eq_true (by omega))]
        exact List.Sublist.cons_cons _ ih
      · rw [if_neg hd, List.nil_append]
        refine ih.trans (List.Sublist.filter _ (List.sublist_cons_self ..))
    · rw [if_neg hf] at ih ⊢
      rw [if_neg (fun hd : Delivered s w pre p => hf hd.1), List.nil_append]
      exact ih

/-! ## The start of a connection as packets -/

theorem splits_prefix : ∀ (qs : List Packet) (s : List UInt8), (∀ q ∈ qs, Whole q) → s <+: stream qs →
    ∃ n rest, Splits s (qs.take n) rest
  | [], s, _, h => by
    have hs : s = [] := List.prefix_nil.1 h
    subst hs
    exact ⟨0, [], rfl, (fun _ h => nomatch h), Or.inr (Or.inl (by decide))⟩
  | p :: qs, s, hw, h => by
    obtain ⟨h1, h2, h3⟩ := hw p (List.mem_cons_self ..)
    have hst : stream (p :: qs) = (p.raw ++ p.body) ++ stream qs := rfl
    rw [hst] at h
    by_cases hl : s.length < (p.raw ++ p.body).length
    · refine ⟨0, s, rfl, (fun _ h => nomatch h), Or.inr ?_⟩
      by_cases h16 : s.length < 16
      · exact Or.inl h16
      · right
        have e : s.take 16 = p.raw := by
          obtain ⟨r, hr⟩ := h
          have : (s ++ r).take 16 = (p.raw ++ p.body ++ stream qs).take 16 := by rw [hr]
          rwa [List.take_append_of_le_length (by omega), List.append_assoc, ← h1, List.take_left, h1] at this
        rw [e]
        rw [List.length_append] at hl
        exact ⟨h2, by omega⟩
    · obtain ⟨r, hr⟩ := h
      have hs : s = (p.raw ++ p.body) ++ s.drop (p.raw ++ p.body).length := by
        have : (s ++ r).take (p.raw ++ p.body).length = p.raw ++ p.body := by rw [hr, List.take_left]
        rw [List.take_append_of_le_length (by omega)] at this
        conv => lhs; rw [← List.take_append_drop (p.raw ++ p.body).length s, this]
      generalize s.drop (p.raw ++ p.body).length = s' at hs
      rw [hs, List.append_assoc] at hr
      obtain ⟨n, rest, i1, i2, i3⟩ := splits_prefix qs s' (fun q hq => hw q (List.mem_cons_of_mem _ hq))
        ⟨r, List.append_cancel_left hr⟩
      refine ⟨n + 1, rest, ?_, ?_, i3⟩
      · rw [hs, List.take_succ_cons, List.flatMap_cons, List.append_assoc (p.raw ++ p.body), ← i1]
      · intro q hq
        rw [List.take_succ_cons] at hq
        rcases List.mem_cons.1 hq with hq | hq
        · rw [hq]; exact ⟨h1, h2, h3⟩
        · exact i2 q hq

/-- The media info packet in force. -/
def infoPkts (ps : List Packet) : List Packet :=
  match (ps.filter (fun p => decide p.isInfo)).getLast? with
  | some p => [p]
  | none => []

theorem infoOf_pkts (ps : List Packet) : infoOf ps = stream (infoPkts ps) := by
  unfold infoOf infoPkts
  cases (ps.filter (fun p => decide p.isInfo)).getLast? with
  | none => rfl
  | some p => exact (KmpOut.stream_one p).symm

theorem infoPkts_cases : ∀ (ps : List Packet), ((∀ p ∈ ps, ¬ p.isInfo) ∧ infoPkts ps = []) ∨
    ∃ b i a, ps = b ++ i :: a ∧ i.isInfo ∧ (∀ q ∈ a, ¬ q.isInfo) ∧ infoPkts ps = [i] := by
  intro ps
  cases h : (ps.filter (fun p => decide p.isInfo)).getLast? with
  | none =>
    left
    rw [List.getLast?_eq_none_iff, List.filter_eq_nil_iff] at h
    exact ⟨fun p hp hi => h p hp (decide_eq_true hi), by unfold infoPkts; rw [List.filter_eq_nil_iff.2 h]; rfl⟩
  | some i =>
    right
    obtain ⟨ys, hy⟩ := List.getLast?_eq_some_iff.1 h
    have h2 : infoPkts ps = [i] := by unfold infoPkts; rw [h]
    rw [h2]
    clear h h2
    have key : ∀ (ps ys : List Packet) (i : Packet), ps.filter (fun p => decide p.isInfo) = ys ++ [i] →
        ∃ b a, ps = b ++ i :: a ∧ i.isInfo ∧ (∀ q ∈ a, ¬ q.isInfo) := by
      intro ps
      induction ps with
      | nil => intro ys i h; cases ys <;> exact nomatch h
      | cons p ps ih =>
        intro ys i h
        by_cases hp : p.isInfo
        · rw [List.filter_cons_of_pos (by simpa using hp)] at h
          cases ys with
          | nil =>
            rw [List.nil_append] at h
            injection h with h1 h2
            subst h1
            refine ⟨[], ps, rfl, hp, fun q hq hi => ?_⟩
            exact List.filter_eq_nil_iff.1 h2 q hq (decide_eq_true hi)
          | cons y ys =>
            rw [List.cons_append] at h
            injection h with h1 h2
            obtain ⟨b, a, e1, e2, e3⟩ := ih ys i h2
            exact ⟨p :: b, a, by rw [e1]; rfl, e2, e3⟩
        · rw [List.filter_cons_of_neg (by simpa using hp)] at h
          obtain ⟨b, a, e1, e2, e3⟩ := ih ys i h
          exact ⟨p :: b, a, by rw [e1]; rfl, e2, e3⟩
    obtain ⟨b, a, e1, e2, e3⟩ := key ps ys i hy
    exact ⟨b, i, a, e1, e2, e3, rfl⟩

theorem info_frames (ps : List Packet) : frames (infoPkts ps) = 0 := by
  rcases infoPkts_cases ps with ⟨_, h⟩ | ⟨b, i, a, _, hi, _, h⟩
  · rw [h]; rfl
  · rw [h, frames_one, if_neg]
    intro hf
    exact KmpIn.types_ne.2.2.1 (hi.symm.trans hf)

theorem info_sendable {ps : List Packet} (h : ∀ p ∈ ps, Sendable p) : ∀ p ∈ infoPkts ps, Sendable p := by
  intro p hp
  rcases infoPkts_cases ps with ⟨_, e⟩ | ⟨b, i, a, e1, _, _, e⟩
  · rw [e] at hp; exact nomatch hp
  · rw [e, List.mem_singleton] at hp
    rw [hp]
    exact h i (by rw [e1]; exact List.mem_append_right _ (List.mem_cons_self ..))

theorem connectPacket_length {connect : List UInt8} (h : connect.length = 104) (n f up o : Nat) :
    (connectPacket connect n f up o).length = 104 := by
  unfold connectPacket
  simp only [List.length_append, List.length_take, List.length_drop, bytesOf_length, h]
  omega

theorem field_prefix (a b : List UInt8) (o n : Nat) (h : o + n ≤ a.length) : field (a ++ b) o n = field a o n := by
  unfold field
  rw [List.drop_append_of_le_length (by omega), List.take_append_of_le_length (by rw [List.length_drop]; omega)]

theorem field_mid (a b c : List UInt8) (o n : Nat) (h1 : a.length = o) (h2 : b.length = n) : field (a ++ b ++ c) o n = KmpIn.le b := by
  unfold field
  rw [List.append_assoc, KmpOut.drop_exact _ h1, KmpOut.take_exact _ h2]

theorem connectPacket_fields {connect : List UInt8} (h : connect.length = 104) {n f : Nat} (hn : n < 2 ^ 32) (hf : f < 2 ^ 64)
    (up o : Nat) :
    ptype (connectPacket connect n f up o) = ptype connect ∧ hsize (connectPacket connect n f up o) = hsize connect ∧
      dsize (connectPacket connect n f up o) = n ∧ field (connectPacket connect n f up o) 80 8 = f := by
  have h8 : (connect.take 8).length = 8 := by rw [List.length_take]; omega
  have e0 : ∀ o' m, o' + m ≤ 8 → field (connectPacket connect n f up o) o' m = field connect o' m := by
    intro o' m hm
    unfold connectPacket
    simp only [List.append_assoc]
    rw [field_prefix _ _ _ _ (by omega), KmpIn.field_take _ hm]
  refine ⟨e0 0 4 (by omega), e0 4 4 (by omega), ?_, ?_⟩
  · unfold dsize connectPacket
    rw [List.append_assoc _ ((connect.drop 12).take 68), List.append_assoc, List.append_assoc, List.append_assoc,
      field_mid _ _ _ 8 4 h8 (bytesOf_length _ _), KmpOut.le_bytesOf]
    exact Nat.mod_eq_of_lt hn
  · unfold connectPacket
    rw [List.append_assoc _ (bytesOf 8 up), List.append_assoc, 
      field_mid _ _ _ 80 8 ?_ (bytesOf_length _ _), KmpOut.le_bytesOf]
    · exact Nat.mod_eq_of_lt hf
    · simp only [List.length_append, List.length_take, List.length_drop, bytesOf_length, h]
      omega

/-- The frames an application gets on a connection that carries the start of what is behind `k0` packets. -/
theorem session_frames {connect cd : List UInt8} {ps : List Packet} {k0 up o : Nat} (hl : connect.length = 104)
    (hh : hsize connect = 104) (hcd : cd.length ≤ 16 * 1024 * 1024)
    (hps : ∀ p ∈ ps, Sendable p) (hf : field connect 80 8 + frames (ps.take k0) < 2 ^ 64 - 1) (c : Session)
    {pieces : List (Nat × List UInt8)} (hp : Pieces 0 pieces)
    (hw : bytes pieces <+: head connect cd ps k0 up o ++ stream (ps.drop k0)) :
    (104 ≤ (bytes pieces).length → field (bytes pieces) 80 8 = field connect 80 8 + frames (ps.take k0)) ∧
    (got c pieces = [] ∨ 104 ≤ (bytes pieces).length ∧ ∃ n,
      got c pieces = delivered (field connect 80 8 + frames (ps.take k0))
        (skip c.max c.next (field connect 80 8 + frames (ps.take k0))) c.wait []
        ((infoPkts (ps.take k0) ++ ps.drop k0).take n)) := by
  generalize hfd : field connect 80 8 + frames (ps.take k0) = f at hf
  have hclen := connectPacket_length hl cd.length f up o
  obtain ⟨c1, c2, c3, c4⟩ := connectPacket_fields hl (n := cd.length) (f := f) (by omega) (by omega) up o
  unfold head at hw
  rw [hfd] at hw
  generalize hhdr : connectPacket connect cd.length f up o = hdr at hw hclen c1 c2 c3 c4
  -- the bytes behind the connect packet
  have hsplit : 104 ≤ (bytes pieces).length →
      ∃ hs, bytes pieces = hdr ++ hs ∧ hs <+: cd ++ (stream (infoPkts (ps.take k0) ++ ps.drop k0)) := by
    intro h104
    rw [infoOf_pkts, List.append_assoc, List.append_assoc, ← KmpOut.stream_append] at hw
    obtain ⟨r, hr⟩ := hw
    have h1 : (bytes pieces).take 104 = hdr := by
      have : (bytes pieces ++ r).take 104 = hdr := by rw [hr, ← hclen, List.take_left]
      rwa [List.take_append_of_le_length h104] at this
    refine ⟨(bytes pieces).drop 104, by rw [← h1, List.take_append_drop], r, ?_⟩
    have : (bytes pieces ++ r).drop 104 = cd ++ stream (infoPkts (ps.take k0) ++ ps.drop k0) := by
      rw [hr, ← hclen, List.drop_left]
    rwa [List.drop_append_of_le_length h104] at this
  refine ⟨fun h104 => ?_, ?_⟩
  · obtain ⟨hs, e, _⟩ := hsplit h104
    rw [e, field_prefix _ _ _ _ (by omega)]
    exact c4
  · obtain ⟨x, st, hrun, hout⟩ := KmpIn.run_outcome (app c) [] pieces hp
    have hgot : got c pieces = x.log.filter Event.isFrame := by unfold got; rw [hrun]
    generalize hlog : x.log = log at hout hgot
    generalize x.app = xa at hout
    cases hout with
    | opening h => left; rw [hgot]; rfl
    | refused h1 h2 => left; rw [hgot]; rfl
    | rejected h1 h2 h3 => left; rw [hgot]; rfl
    | connecting h1 h2 h3 h4 => left; rw [hgot]; rfl
    | packets r st h1 h2 h3 h4 h5 h6 =>
      right
      have h1 : 104 ≤ (bytes pieces).length := h1
      obtain ⟨hs, e, hpre⟩ := hsplit h1
      have htk : (pieces.flatMap (·.2)).take 104 = hdr := by
        show (bytes pieces).take 104 = _
        rw [e, ← hclen, List.take_left]
      rw [htk] at h2 h3 h4
      have h3 : ((app c).connected [] hdr) = (_, some (_, _)) := h3
      have hacc : c.accept = true := by
        by_cases ha : c.accept = true
        · exact ha
        · exfalso
          unfold app at h3
          dsimp only at h3
          rw [if_neg ha] at h3
          injection h3 with _ h3
          exact nomatch h3
      have hcon : (app c).connected [] hdr = ([], some (skip c.max c.next f, c.wait)) := by
        unfold app
        dsimp only
        rw [if_pos hacc, c4]
      have hlen : hsize hdr + dsize hdr ≤ 104 + hs.length := by
        have h4 : hsize hdr + dsize hdr ≤ (bytes pieces).length := h4
        rw [e, List.length_append, hclen] at h4; exact h4
      rw [c2, hh, c3] at hlen
      have hdrop : hs.drop (hsize hdr + dsize hdr - 104) <+: stream (infoPkts (ps.take k0) ++ ps.drop k0) := by
        rw [c2, hh, c3, show 104 + cd.length - 104 = cd.length by omega]
        obtain ⟨r, hr⟩ := hpre
        refine ⟨r, ?_⟩
        have : (hs ++ r).drop cd.length = stream (infoPkts (ps.take k0) ++ ps.drop k0) := by rw [hr, List.drop_left]
        rwa [List.drop_append_of_le_length (by omega)] at this
      obtain ⟨n, rest, hspl⟩ := splits_prefix (infoPkts (ps.take k0) ++ ps.drop k0) _ (by
        intro q hq
        rcases List.mem_append.1 hq with hq | hq
        · exact (info_sendable (fun p hp => hps p (List.mem_of_mem_take hp)) q hq).1
        · exact (hps q (List.mem_of_mem_drop hq)).1) hdrop
      obtain ⟨x', st', m, r1, r2, r3, r4⟩ := KmpIn.run_frames (app c) [] [] _ _ pieces hp hs hdr _ rest e h2 hclen hcon
        (by rw [c2, hh, c3]; exact hlen) hspl
      refine ⟨h1, min m n, ?_⟩
      have : got c pieces = x'.log.filter Event.isFrame := by unfold got; rw [r1]
      rw [this, r4, c4, List.take_take]

/-! ## Facts about one connection -/

/-- The frames `K` are written ones below `N`, in order, and all of those that are due. -/
def Has (first : Nat) (starts : List Nat) (ps : List Packet) (K : List Event) (N : Nat) : Prop :=
  K.Sublist ((numbered first ps).filter (fun e => decide (eventId e < N))) ∧
  ∀ pre p post, ps = pre ++ p :: post → Due first starts pre p → first + frames pre < N → p.event (first + frames pre) ∈ K

/-- The frames `G` are written ones from `N` on, in order, and up to the last of them all that are due. -/
def Gives (first : Nat) (starts : List Nat) (ps : List Packet) (G : List Event) (N : Nat) : Prop :=
  G.Sublist ((numbered first ps).filter (fun e => decide (N ≤ eventId e))) ∧
  ∀ e ∈ G, ∀ pre p post, ps = pre ++ p :: post → Due first starts pre p → N ≤ first + frames pre →
    first + frames pre ≤ eventId e → p.event (first + frames pre) ∈ G

theorem prefix_or {α : Type} {a b c d : List α} (h : a ++ b = c ++ d) : a <+: c ∨ c <+: a := by
  have h1 : a <+: c ++ d := ⟨b, h⟩
  have h2 : c <+: c ++ d := ⟨d, rfl⟩
  exact List.prefix_or_prefix_of_prefix h1 h2

/-- A frame that is due is delivered on a connection that started at `f` and skips up to `N`. -/
theorem due_delivered {first : Nat} {starts : List Nat} {A d : List Packet} {p : Packet} {s : Nat} {w : Bool}
    (hN : first + frames A + s ∈ starts) (h : Due first starts (A ++ d) p) (hs : s ≤ frames d) :
    Delivered s w (infoPkts A ++ d) p := by
  obtain ⟨h1, h2, before, info, after, e, h3, h4, h5, h6⟩ := h
  have hfr : frames (infoPkts A ++ d) = frames d := by rw [frames_append, info_frames, Nat.zero_add]
  refine ⟨h1, by rw [hfr]; exact hs, h2, ?_⟩
  have hN' : first + frames A + s ≤ first + frames (A ++ d) := by rw [frames_append]; omega
  have e' : (before ++ [info]) ++ after = A ++ d := by rw [e, List.append_assoc]; rfl
  rcases prefix_or e' with ⟨r, hr⟩ | ⟨r, hr⟩
  · -- the media info is from before the connection
    have hafter : after = r ++ d := by
      rw [← hr, List.append_assoc (before ++ [info])] at e'
      exact List.append_cancel_left e'
    have hA : A = before ++ info :: r := by rw [← hr, List.append_assoc]; rfl
    have hI : infoPkts A = [info] := by
      rcases infoPkts_cases A with ⟨hno, _⟩ | ⟨b, i, a, e1, e2, e3, e4⟩
      · exact absurd h3 (hno info (by rw [hA]; exact List.mem_append_right _ (List.mem_cons_self ..)))
      · rw [hA] at e1
        obtain ⟨_, e5, _⟩ := KmpIn.last_info_unique e1 h3 e2 (fun q hq => h4 q (by rw [hafter]; exact List.mem_append_left _ hq)) e3
        rw [e4, e5]
    refine ⟨[], info, d, by rw [hI]; rfl, h3, fun q hq => h4 q (by rw [hafter]; exact List.mem_append_right _ hq), h5, fun hv => ?_⟩
    rcases h6 hv _ hN hN' with hk | ⟨b, q, c, hb, hk, hq⟩
    · exact Or.inl hk
    · right; left
      -- the key frame is on this connection
      have hqf : frames [q] = 1 := by rw [frames_one, if_pos hk.1]
      rw [hafter] at hb
      have hb' : r ++ d = (b ++ [q]) ++ c := by rw [hb, List.append_assoc]; rfl
      rcases prefix_or hb' with ⟨z, hz⟩ | ⟨z, hz⟩
      · -- `r` is in front of `q`, or ends with it
        rcases List.eq_nil_or_concat z with rfl | ⟨z', y, rfl⟩
        · exfalso
          rw [List.append_nil] at hz
          have : frames A = frames (before ++ info :: b) + 1 := by
            rw [hA, hz, ← List.cons_append, ← List.append_assoc, frames_append, hqf]
          omega
        · rw [List.concat_eq_append, ← List.append_assoc] at hz
          obtain ⟨hz1, hz2⟩ := List.append_inj' hz rfl
          injection hz2 with hz2
          subst hz2
          rw [← hz1] at hb' hq
          refine ⟨z', y, c, ?_, hk, ?_⟩
          · rw [List.append_assoc, List.append_assoc] at hb'
            exact List.append_cancel_left hb'
          · have : frames (before ++ info :: (r ++ z')) = frames A + frames z' := by
              rw [hA, ← List.cons_append, ← List.append_assoc, frames_append]
            rw [this] at hq
            have h0 : frames ([] ++ info :: z') = frames z' := by
              rw [List.nil_append, ← List.singleton_append, frames_append, frames_one, if_neg, Nat.zero_add]
              intro hf
              exact KmpIn.types_ne.2.2.1 (h3.symm.trans hf)
            rw [h0]; omega
      · exfalso
        have : frames (b ++ [q]) ≤ frames r := frames_prefix ⟨z, hz⟩
        rw [frames_append, hqf] at this
        have hc : ∀ X, frames (before ++ info :: X) = frames before + (frames [info] + frames X) := by
          intro X; rw [frames_append, ← List.singleton_append, frames_append]
        rw [hA, hc, hc] at hq
        omega
  · -- the media info is on this connection
    have hd : d = r ++ after := by
      rw [← hr, List.append_assoc] at e'
      exact (List.append_cancel_left e').symm
    rcases List.eq_nil_or_concat r with rfl | ⟨r', y, rfl⟩
    · -- it is the last packet before the connection
      rw [List.append_nil] at hr
      have hA : A = before ++ info :: [] := hr
      have hI : infoPkts A = [info] := by
        rcases infoPkts_cases A with ⟨hno, _⟩ | ⟨b, i, a, e1, e2, e3, e4⟩
        · exact absurd h3 (hno info (by rw [hA]; exact List.mem_append_right _ (List.mem_cons_self ..)))
        · rw [hA] at e1
          obtain ⟨_, e5, _⟩ := KmpIn.last_info_unique e1 h3 e2 (fun q hq => nomatch hq) e3
          rw [e4, e5]
      have hd : d = after := hd
      refine ⟨[], info, d, by rw [hI]; rfl, h3, by rw [hd]; exact h4, h5, fun hv => ?_⟩
      rcases h6 hv _ hN hN' with hk | ⟨b, q, c, hb, hk, hq⟩
      · exact Or.inl hk
      · right; left
        refine ⟨b, q, c, by rw [hd]; exact hb, hk, ?_⟩
        have h0 : ∀ X, frames (X ++ info :: b) = frames X + frames b := by
          intro X
          rw [frames_append, ← List.singleton_append, frames_append, frames_one, if_neg, Nat.zero_add]
          intro hf
          exact KmpIn.types_ne.2.2.1 (h3.symm.trans hf)
        rw [h0] at hq ⊢
        have : frames A = frames before := by
          rw [hA, frames_append, frames_one, if_neg, Nat.add_zero]
          intro hf
          exact KmpIn.types_ne.2.2.1 (h3.symm.trans hf)
        have h00 : frames ([] : List Packet) = 0 := rfl
        omega
    · rw [List.concat_eq_append, ← List.append_assoc] at hr
      obtain ⟨hz1, hz2⟩ := List.append_inj' hr rfl
      injection hz2 with hz2
      subst hz2
      rw [List.concat_eq_append, List.append_assoc, List.singleton_append] at hd
      refine ⟨infoPkts A ++ r', y, after, by rw [hd, List.append_assoc], h3, h4, h5, fun hv => ?_⟩
      rcases h6 hv _ hN hN' with hk | ⟨b, q, c, hb, hk, hq⟩
      · exact Or.inl hk
      · right; left
        refine ⟨b, q, c, hb, hk, ?_⟩
        rw [← hz1, frames_append, frames_append] at hq
        rw [frames_append, frames_append, info_frames]
        omega

/-- What an application gets on a connection that started behind `k0` packets, and skips up to `N`. -/
theorem session_gives {first : Nat} {starts : List Nat} {ps : List Packet} {k0 s n N : Nat} {w : Bool}
    (hb : first + frames ps < 2 ^ 64) (hN : first + frames (ps.take k0) + s = N) (hs : N ∈ starts) :
    Gives first starts ps
      (delivered (first + frames (ps.take k0)) s w [] ((infoPkts (ps.take k0) ++ ps.drop k0).take n)) N := by
  have hsplit : ps.take k0 ++ ps.drop k0 = ps := List.take_append_drop k0 ps
  have hfr : frames ps = frames (ps.take k0) + frames (ps.drop k0) := by
    conv => lhs; rw [← hsplit]
    rw [frames_append]
  have hI := info_frames (ps.take k0)
  have hP : frames ((infoPkts (ps.take k0) ++ ps.drop k0).take n) ≤ frames (ps.drop k0) := by
    have := frames_prefix (List.take_prefix n (infoPkts (ps.take k0) ++ ps.drop k0))
    rw [frames_append, hI, Nat.zero_add] at this
    exact this
  constructor
  · have h1 := delivered_sub (f := first + frames (ps.take k0)) (s := s) (w := w)
      ((infoPkts (ps.take k0) ++ ps.drop k0).take n) [] (by rw [List.nil_append]; omega)
    rw [hN] at h1
    refine h1.trans (List.Sublist.filter _ ?_)
    have h00 : frames ([] : List Packet) = 0 := rfl
    rw [h00, Nat.add_zero]
    have h2 : (numbered (first + frames (ps.take k0)) ((infoPkts (ps.take k0) ++ ps.drop k0).take n)).Sublist
        (numbered (first + frames (ps.take k0)) (infoPkts (ps.take k0) ++ ps.drop k0)) := by
      conv => rhs; rw [← List.take_append_drop n (infoPkts (ps.take k0) ++ ps.drop k0)]
      rw [numbered_append]
      exact List.sublist_append_left ..
    refine h2.trans ?_
    have h3 : numbered (first + frames (ps.take k0)) (infoPkts (ps.take k0)) = [] := by
      cases hc : numbered (first + frames (ps.take k0)) (infoPkts (ps.take k0)) with
      | nil => rfl
      | cons e l =>
        have := numbered_range (e := e) (by rw [hc]; exact List.mem_cons_self ..)
        omega
    rw [numbered_append, h3, hI, Nat.add_zero, List.nil_append]
    conv => rhs; rw [← hsplit]
    rw [numbered_append]
    exact List.sublist_append_right ..
  · intro e he pre p post hps hdue h1 h2
    have hpf : frames [p] = 1 := by rw [frames_one, if_pos hdue.1]
    obtain ⟨a, p', b, e1, e2, e3⟩ := mem_delivered he
    rw [List.nil_append] at e2 e3
    have hp'f : frames [p'] = 1 := by rw [frames_one, if_pos e2.1]
    have ha : frames a < frames ((infoPkts (ps.take k0) ++ ps.drop k0).take n) := by
      rw [e1, frames_append, ← List.singleton_append, frames_append, hp'f]; omega
    have hide : eventId e = first + frames (ps.take k0) + frames a := by
      rw [e3, event_id, Nat.mod_eq_of_lt (by omega)]
    -- the frame is behind the first `k0` packets
    have hpre : ∃ d, pre = ps.take k0 ++ d := by
      have hq : (pre ++ [p]) ++ post = ps.take k0 ++ ps.drop k0 := by rw [hsplit, hps, List.append_assoc]; rfl
      rcases prefix_or hq with hx | ⟨r, hr⟩
      · exfalso
        have := frames_prefix hx
        rw [frames_append, hpf] at this
        omega
      · rcases List.eq_nil_or_concat r with rfl | ⟨r', y, rfl⟩
        · exfalso
          rw [List.append_nil] at hr
          rw [hr, frames_append, hpf] at hN
          omega
        · rw [List.concat_eq_append, ← List.append_assoc] at hr
          exact ⟨r', (List.append_inj' hr rfl).1.symm⟩
    obtain ⟨d, rfl⟩ := hpre
    have hdrop : ps.drop k0 = d ++ p :: post := by
      have hps2 : ps.take k0 ++ ps.drop k0 = ps.take k0 ++ (d ++ p :: post) := by rw [hsplit, ← List.append_assoc]; exact hps
      exact List.append_cancel_left hps2
    rw [frames_append] at h1 h2 ⊢
    -- and before the point where the connection is
    have hlt : (infoPkts (ps.take k0) ++ d).length < n := by
      apply Nat.lt_of_not_le
      intro hle
      have : (infoPkts (ps.take k0) ++ ps.drop k0).take n <+: infoPkts (ps.take k0) ++ d := by
        rw [hdrop, ← List.append_assoc, List.take_append_of_le_length hle]
        exact List.take_prefix ..
      have := frames_prefix this
      rw [frames_append, hI] at this
      omega
    have htake : (infoPkts (ps.take k0) ++ ps.drop k0).take n =
        (infoPkts (ps.take k0) ++ d) ++ p :: post.take (n - (infoPkts (ps.take k0) ++ d).length - 1) := by
      rw [hdrop, ← List.append_assoc, List.take_append, List.take_of_length_le (Nat.le_of_lt hlt)]
      congr 1
      rw [show n - (infoPkts (ps.take k0) ++ d).length = (n - (infoPkts (ps.take k0) ++ d).length - 1) + 1 by omega,
        List.take_succ_cons]
      rfl
    have hfd : frames (infoPkts (ps.take k0) ++ d) = frames d := by rw [frames_append, hI, Nat.zero_add]
    have hdel := due_delivered (w := w) (s := s) (by rw [hN]; exact hs) hdue (by omega)
    have hm := delivered_mem (f := first + frames (ps.take k0)) (b := post.take (n - (infoPkts (ps.take k0) ++ d).length - 1)) hdel
    rw [htake]
    rw [hfd, Nat.mod_eq_of_lt (by
      have : frames (ps.drop k0) = frames d + (1 + frames post) := by
        rw [hdrop, frames_append, ← List.singleton_append, frames_append, hpf]
      omega)] at hm
    rw [← Nat.add_assoc]
    exact hm

end Verif.KmpLink
