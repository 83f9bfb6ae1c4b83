import Verif.KmpLinkSession

/-!
# Property C23: frames arrive once, in order, and none is lost, whatever connections break
-/

namespace Verif.KmpLink

open Verif.KmpIn (field Packet Event Rc App Pieces frames frames_append frames_one Ctx Status)
open Verif.KmpOut (Track Up Op Sendable head stream Good AllAcked Tail)

/-! ## Events are only added -/

section Log

variable {σ : Type} {a : App σ}

theorem log_say (x : Ctx σ) (e : Event) : x.log <+: (KmpIn.call a x e).1.log := List.prefix_append ..

theorem log_connectData (x : Ctx σ) : x.log <+: (KmpIn.connectData a x).1.log := by
  unfold KmpIn.connectData
  dsimp only
  generalize (if KmpIn.hsize x.raw > KmpIn.connectLen then
    BufChain.skip (KmpIn.datas x.chain) (KmpIn.hsize x.raw - KmpIn.connectLen) else (true, KmpIn.datas x.chain)) = r
  split
  · exact List.prefix_rfl
  · split <;> exact log_say (a := a) x _

theorem log_copy (x : Ctx σ) (n : Nat) : (KmpIn.copyHeader x n).1.log = x.log := by
  unfold KmpIn.copyHeader
  dsimp only
  split
  · rfl
  · split
    · rfl
    · next bytes d _ =>
      generalize (if KmpIn.hsize x.raw - KmpIn.hdrLen - n > 0 then
        BufChain.skip d (KmpIn.hsize x.raw - KmpIn.hdrLen - n) else (true, d)) = r
      split <;> rfl

theorem log_mediaInfo (x : Ctx σ) : x.log <+: (KmpIn.mediaInfo a x).1.log := by
  unfold KmpIn.mediaInfo
  split
  · next x1 st h => rw [← log_copy x KmpIn.mediaInfoLen, h]; exact List.prefix_rfl
  · next x1 info h =>
    rw [← log_copy x KmpIn.mediaInfoLen, h]
    dsimp only
    split
    · exact List.prefix_rfl
    · split <;> exact log_say (a := a) x1 _

theorem log_frame (x : Ctx σ) : x.log <+: (KmpIn.frame a x).1.log := by
  unfold KmpIn.frame
  split
  · next x1 st h => rw [← log_copy x KmpIn.frameLen, h]; exact List.prefix_rfl
  · next x1 f h =>
    rw [← log_copy x KmpIn.frameLen, h]
    dsimp only
    split
    · unfold KmpIn.nextFrame
      dsimp only
      split <;> exact List.prefix_rfl
    · split
      · exact List.prefix_rfl
      · split
        · exact List.prefix_rfl
        · split
          · exact List.prefix_rfl
          · split
            · exact List.prefix_rfl
            · split <;> exact List.prefix_append ..

theorem log_dispatch (x : Ctx σ) : x.log <+: (KmpIn.dispatch a x).1.log := by
  unfold KmpIn.dispatch
  dsimp only
  have h : ∀ r : Ctx σ × Option Status, x.log <+: r.1.log →
      x.log <+: (match r with
        | (x1, none) => (KmpIn.freeChain x1, none)
        | (x1, some st) => (x1, some st) : Ctx σ × Option Status).1.log := by
    intro r hr
    rcases r with ⟨x1, _ | st⟩ <;> exact hr
  apply h
  split
  · exact log_connectData x
  · split
    · exact log_mediaInfo x
    · split
      · exact log_frame x
      · split
        · exact List.prefix_rfl
        · split
          · exact log_say x _
          · exact List.prefix_rfl

theorem log_body (x : Ctx σ) (addr : Nat) (b : List UInt8) : x.log <+: (KmpIn.body a x addr b).1.log := by
  unfold KmpIn.body
  dsimp only
  generalize h1 : (if min b.length x.left > 0 then
    { KmpIn.link x addr (b.take (min b.length x.left)) with left := x.left - min b.length x.left } else x) = x1
  have e1 : x1.log = x.log := by
    rw [← h1]
    split
    · show (KmpIn.link x addr _).log = _
      unfold KmpIn.link
      split
      · split <;> rfl
      · rfl
    · rfl
  split
  · rw [e1]; exact List.prefix_rfl
  · have := log_dispatch (a := a) x1
    split
    · next x2 h2 => rw [h2, e1] at this; exact this
    · next x2 st h2 => rw [h2, e1] at this; exact this

theorem log_process : ∀ (k : Nat) (x : Ctx σ) (addr : Nat) (b : List UInt8) (x' : Ctx σ) (st : Option Status),
    KmpIn.process a k x addr b = some (x', st) → x.log <+: x'.log
  | 0, _, _, _, _, _, e => nomatch e
  | k + 1, x, addr, [], x', st, e => by
    unfold KmpIn.process at e
    injection e with e; injection e with e _
    rw [← e]; exact List.prefix_rfl
  | k + 1, x, addr, c :: cs, x', st, e => by
    unfold KmpIn.process at e
    dsimp only at e
    have next : ∀ (y : Ctx σ) (ad : Nat) (bb : List UInt8), x.log = y.log →
        (match KmpIn.body a y ad bb with
          | (x2, some b2, _) => KmpIn.process a k x2 (addr + ((c :: cs).length - b2.length)) b2
          | (x2, none, st) => some (x2, st)) = some (x', st) → x.log <+: x'.log := by
      intro y ad bb hy e
      have hb := log_body (a := a) y ad bb
      rw [← hy] at hb
      split at e
      · next x2 b2 _ h2 =>
        rw [h2] at hb
        exact hb.trans (log_process k _ _ _ _ _ e)
      · next x2 st2 h2 =>
        rw [h2] at hb
        injection e with e; injection e with e _
        rw [← e]; exact hb
    split at e
    · split at e
      · injection e with e; injection e with e _
        rw [← e]; exact List.prefix_rfl
      · split at e
        · injection e with e; injection e with e _
          rw [← e]; exact List.prefix_rfl
        · exact next _ _ _ (by rfl) e
    · exact next x _ _ rfl e

theorem log_readHeader (x : Ctx σ) (b : List UInt8) : x.log <+: (KmpIn.readHeader a x b).1.log := by
  unfold KmpIn.readHeader
  dsimp only
  split
  · exact List.prefix_rfl
  · split
    · exact List.prefix_rfl
    · split
      · exact List.prefix_rfl
      · split
        · exact List.prefix_rfl
        · split
          · exact List.prefix_rfl
          · split
            · exact List.prefix_append ..
            · next s count wait _ =>
              have fin : ∀ (y : Ctx σ) (f : Nat), x.log <+: y.log →
                  x.log <+: (match (if y.left ≤ 0 then KmpIn.connectData a y else (y, none)) with
                    | (x1, some st) => (x1, some st)
                    | (x1, none) => ({ x1 with cur := f, acked := f }, none) : Ctx σ × Option Status).1.log := by
                intro y f hy
                have h2 : y.log <+: (if y.left ≤ 0 then KmpIn.connectData a y else (y, none)).1.log := by
                  split
                  · exact log_connectData y
                  · exact List.prefix_rfl
                have h3 := hy.trans h2
                split
                · next x1 st h4 => rw [h4] at h3; exact h3
                · next x1 h4 => rw [h4] at h3; exact h3
              exact fin { x with
                buf := x.buf ++ b, app := s, log := x.log ++ [.connected (x.buf ++ b)], part := [],
                left := KmpIn.hsize (x.buf ++ b) + KmpIn.dsize (x.buf ++ b) - KmpIn.connectLen,
                raw := (x.buf ++ b).take KmpIn.hdrLen, skipLeft := count, skipWaitKey := wait, headerRead := true } _
                (List.prefix_append ..)

theorem log_receive {x x' : Ctx σ} {addr : Nat} {b : List UInt8} {st : Option Status}
    (e : KmpIn.receive a x addr b = some (x', st)) : x.log <+: x'.log := by
  unfold KmpIn.receive at e
  split at e
  · injection e with e
    have := log_readHeader (a := a) x b
    rw [e] at this; exact this
  · exact log_process _ _ _ _ _ _ e

theorem log_more : ∀ (pieces : List (Nat × List UInt8)) (x x1 x2 : Ctx σ) (q : Nat × List UInt8) (st st2 : Option Status),
    KmpIn.run a x pieces = some (x1, st) → KmpIn.run a x (pieces ++ [q]) = some (x2, st2) → x1.log <+: x2.log
  | [], x, x1, x2, q, st, st2, e1, e2 => by
    obtain ⟨addr, b⟩ := q
    unfold KmpIn.run at e1
    injection e1 with e1; injection e1 with e1 _
    rw [← e1]
    rw [List.nil_append] at e2
    unfold KmpIn.run at e2
    cases hr : KmpIn.receive a x addr b with
    | none => rw [hr] at e2; exact nomatch e2
    | some r =>
      obtain ⟨y, st'⟩ := r
      have := log_receive hr
      rw [hr] at e2
      dsimp only [Option.bind_some] at e2
      split at e2
      · injection e2 with e2; injection e2 with e2 _
        rw [← e2]; exact this
      · unfold KmpIn.run at e2
        injection e2 with e2; injection e2 with e2 _
        rw [← e2]; exact this
  | (addr, b) :: rest, x, x1, x2, q, st, st2, e1, e2 => by
    rw [List.cons_append] at e2
    unfold KmpIn.run at e1 e2
    cases hr : KmpIn.receive a x addr b with
    | none => rw [hr] at e2; exact nomatch e2
    | some r =>
      obtain ⟨y, st'⟩ := r
      rw [hr] at e1 e2
      dsimp only [Option.bind_some] at e1 e2
      cases st' with
      | some st' =>
        injection e1 with e1; injection e1 with e1 _
        injection e2 with e2; injection e2 with e2 _
        rw [← e1, ← e2]; exact List.prefix_rfl
      | none => exact log_more rest y x1 x2 q st st2 e1 e2

end Log

/-- More bytes give more frames behind those that are there. -/
theorem got_more (c : Session) {pieces : List (Nat × List UInt8)} {q : Nat × List UInt8} (h : Pieces 0 (pieces ++ [q]))
    (h0 : Pieces 0 pieces) : got c pieces <+: got c (pieces ++ [q]) := by
  obtain ⟨x1, st1, e1, _⟩ := KmpIn.run_outcome (app c) [] pieces h0
  obtain ⟨x2, st2, e2, _⟩ := KmpIn.run_outcome (app c) [] (pieces ++ [q]) h
  obtain ⟨r, hr⟩ := log_more pieces _ _ _ _ _ _ e1 e2
  unfold got
  rw [e1, e2]
  dsimp only
  rw [← hr, List.filter_append]
  exact List.prefix_append ..

/-! ## Frames that are kept -/

theorem sorted_sublist {a b : List Event} (h : a.Sublist b) (hb : Sorted b) : Sorted a := List.Pairwise.sublist h hb

theorem has_more_starts {first : Nat} {starts more : List Nat} {ps : List Packet} {K : List Event} {N : Nat}
    (h : Has first starts ps K N) : Has first (starts ++ more) ps K N := by
  refine ⟨h.1, fun pre p post e hd hlt => h.2 pre p post e ?_ hlt⟩
  obtain ⟨h1, h2, b, i, a, h3, h4, h5, h6, h7⟩ := hd
  exact ⟨h1, h2, b, i, a, h3, h4, h5, h6, fun hv M hM => h7 hv M (List.mem_append_left _ hM)⟩

theorem has_more_packets {first : Nat} {starts : List Nat} {ps qs : List Packet} {K : List Event} {N : Nat}
    (h : Has first starts ps K N) (hN : N ≤ first + frames ps) : Has first starts (ps ++ qs) K N := by
  refine ⟨h.1.trans ?_, fun pre p post e hd hlt => ?_⟩
  · rw [numbered_append, List.filter_append]; exact List.sublist_append_left ..
  · -- the packet is one of the old ones
    have e' : ps ++ qs = (pre ++ [p]) ++ post := by rw [e, List.append_assoc]; rfl
    have hpf : frames [p] = 1 := by rw [frames_one, if_pos hd.1]
    rcases prefix_or e' with ⟨r, hr⟩ | ⟨r, hr⟩
    · rcases List.eq_nil_or_concat r with rfl | ⟨r', y, rfl⟩
      · rw [List.append_nil] at hr
        exact h.2 pre p [] hr hd hlt
      · exfalso
        rw [List.concat_eq_append, ← List.append_assoc] at hr
        have := (List.append_inj' hr rfl).1
        rw [← this, frames_append] at hlt
        omega
    · exact h.2 pre p r (by rw [← hr, List.append_assoc]; rfl) hd hlt

theorem has_bound {first : Nat} {starts : List Nat} {ps : List Packet} {K : List Event} {N : Nat} (h : Has first starts ps K N) :
    max first (nextOf K) ≤ first + frames ps := by
  unfold nextOf
  cases hl : K.getLast? with
  | none => dsimp only; omega
  | some e =>
    dsimp only
    have := List.mem_of_getLast? hl
    have := h.1.subset this
    have := numbered_range (List.mem_filter.1 this).1
    omega

/-- What is kept of the frames of a connection. -/
theorem has_keep {first : Nat} {starts : List Nat} {ps : List Packet} {D G : List Event}
    (h : Has first starts ps D (max first (nextOf D))) (hg : Gives first starts ps G (max first (nextOf D))) (n : Nat) :
    Has first starts ps (D ++ G.take n) (max first (nextOf (D ++ G.take n))) := by
  have hs := numbered_sorted ps first
  rcases List.eq_nil_or_concat (G.take n) with hn | ⟨T, e, hn⟩
  · rw [hn, List.append_nil]; exact h
  · rw [List.concat_eq_append] at hn
    have hnext : nextOf (D ++ G.take n) = eventId e + 1 := by
      unfold nextOf
      rw [hn, ← List.append_assoc, List.getLast?_concat]
    have hGs : Sorted G := sorted_sublist (hg.1.trans List.filter_sublist) hs
    have hTs : Sorted (T ++ [e]) := by rw [← hn]; exact sorted_sublist (List.take_sublist ..) hGs
    have heG : e ∈ G := List.mem_of_mem_take (by rw [hn]; exact List.mem_append_right _ (List.mem_singleton.2 rfl))
    have heN : max first (nextOf D) ≤ eventId e := of_decide_eq_true (List.mem_filter.1 (hg.1.subset heG)).2
    have hle : ∀ x ∈ T ++ [e], eventId x ≤ eventId e := by
      intro x hx
      rcases List.mem_append.1 hx with hx | hx
      · exact Nat.le_of_lt ((List.pairwise_append.1 hTs).2.2 x hx e (List.mem_singleton.2 rfl))
      · rw [List.mem_singleton.1 hx]; exact Nat.le_refl _
    rw [hnext, Nat.max_eq_right (by omega)]
    constructor
    · have h1 : (D ++ G.take n).Sublist (numbered first ps) := by
        rw [← sorted_split hs (max first (nextOf D))]
        exact List.Sublist.append h.1 ((List.take_sublist ..).trans hg.1)
      have h2 := List.Sublist.filter (fun x => decide (eventId x < eventId e + 1)) h1
      rwa [List.filter_eq_self.2] at h2
      intro x hx
      apply decide_eq_true
      rcases List.mem_append.1 hx with hx | hx
      · have : eventId x < max first (nextOf D) := of_decide_eq_true (List.mem_filter.1 (h.1.subset hx)).2
        omega
      · rw [hn] at hx
        have := hle x hx
        omega
    · intro pre p post e1 hd hlt
      by_cases hx : first + frames pre < max first (nextOf D)
      · exact List.mem_append_left _ (h.2 pre p post e1 hd hx)
      · have hm := hg.2 e heG pre p post e1 hd (by omega) (by omega)
        rw [← List.take_append_drop n G] at hm hGs
        rcases List.mem_append.1 hm with hm | hm
        · exact List.mem_append_right _ hm
        · exfalso
          have := (List.pairwise_append.1 hGs).2.2 e (by rw [hn]; exact List.mem_append_right _ (List.mem_singleton.2 rfl)) _ hm
          rw [event_id] at this
          omega

theorem gives_nil {first : Nat} {starts : List Nat} {ps : List Packet} {N : Nat} : Gives first starts ps [] N :=
  ⟨List.nil_sublist _, fun _ h => nomatch h⟩

/-! ## The invariant -/

/-- The bytes are from a connection that started behind packets that are below `N`. -/
def From (connect : List UInt8) (ps : List Packet) (N : Nat) (w : List UInt8) : Prop :=
  w = [] ∨ ∃ cd k0 up o, cd.length ≤ 16 * 1024 * 1024 ∧ k0 ≤ ps.length ∧ field connect 80 8 + frames (ps.take k0) ≤ N ∧
    w <+: head connect cd ps k0 up o ++ stream (ps.drop k0)

/-- The bytes are acks of ids up to `N`. -/
def AckBytes (N : Nat) (w : List UInt8) : Prop :=
  ∃ (ids : List Nat) (part : List UInt8), w = ids.flatMap KmpInAck.packet ++ part ∧ part.length < 40 ∧ ∀ i ∈ ids, i ≤ N

theorem From.mono {connect : List UInt8} {ps : List Packet} {N M : Nat} {w : List UInt8} (h : From connect ps N w) (hle : N ≤ M) :
    From connect ps M w := by
  rcases h with h | ⟨cd, k0, up, o, h1, h2, h3, h4⟩
  · exact Or.inl h
  · exact Or.inr ⟨cd, k0, up, o, h1, h2, by omega, h4⟩

theorem From.more {connect : List UInt8} {ps qs : List Packet} {N : Nat} {w : List UInt8} (h : From connect ps N w) :
    From connect (ps ++ qs) N w := by
  rcases h with h | ⟨cd, k0, up, o, h1, h2, h3, h4⟩
  · exact Or.inl h
  · refine Or.inr ⟨cd, k0, up, o, h1, by rw [List.length_append]; omega, by rw [List.take_append_of_le_length h2]; exact h3, ?_⟩
    have hH : head connect cd (ps ++ qs) k0 up o = head connect cd ps k0 up o := by
      unfold head; rw [List.take_append_of_le_length h2]
    rw [hH, List.drop_append_of_le_length h2, KmpOut.stream_append, ← List.append_assoc]
    exact h4.trans (List.prefix_append ..)

theorem From.pre {connect : List UInt8} {ps : List Packet} {N : Nat} {v w : List UInt8} (h : From connect ps N w) (hp : v <+: w) :
    From connect ps N v := by
  rcases h with h | ⟨cd, k0, up, o, h1, h2, h3, h4⟩
  · rw [h] at hp; exact Or.inl (List.prefix_nil.1 hp)
  · exact Or.inr ⟨cd, k0, up, o, h1, h2, h3, hp.trans h4⟩

theorem AckBytes.mono {N M : Nat} {w : List UInt8} (h : AckBytes N w) (hle : N ≤ M) : AckBytes M w := by
  obtain ⟨ids, part, h1, h2, h3⟩ := h
  exact ⟨ids, part, h1, h2, fun i hi => Nat.le_trans (h3 i hi) hle⟩

/-- The lowest id that is not kept. -/
def Link.top (first : Nat) (l : Link) : Nat := max first (nextOf l.kept)

/-- Invariant. -/
structure Inv (cap : Nat) (connect : List UInt8) (l : Link) : Prop where
  length : connect.length = 104
  hsize  : KmpIn.hsize connect = 104
  good   : Good true cap connect l.t l.ps
  frame  : ∀ u, l.t.ups[0]? = some u → u.frame ≤ l.top (field connect 80 8) ∧ u.connectData.length ≤ 16 * 1024 * 1024 ∧
    (u.conn = true → Tail l.ackIn u.recv)
  wires  : ∀ w ∈ l.wires, From connect l.ps (l.top (field connect 80 8)) w
  acks   : ∀ w ∈ l.ackWires, AckBytes (l.top (field connect 80 8)) w
  ops    : ∀ i ∈ KmpInAck.acks l.ackOps, i ≤ l.top (field connect 80 8)
  pieces : Pieces 0 l.pieces
  from_  : From connect l.ps (max (field connect 80 8) l.cfg.next) (bytes l.pieces)
  skip   : 104 ≤ (bytes l.pieces).length → l.cfg.next ≤ field (bytes l.pieces) 80 8 + l.cfg.max
  next   : l.cfg.next = nextOf l.done
  n      : l.n ≤ (got l.cfg l.pieces).length
  start  : (l.starts = [] ∧ l.pieces = []) ∨ max (field connect 80 8) l.cfg.next ∈ l.starts
  has    : Has (field connect 80 8) l.starts l.ps l.done (max (field connect 80 8) l.cfg.next)

theorem got_nil (c : Session) : got c [] = [] := rfl

theorem Inv.few {cap : Nat} {connect : List UInt8} {l : Link} (h : Inv cap connect l) :
    field connect 80 8 + frames l.ps < 2 ^ 64 - 1 := by
  have := h.good.inv.shown.few
  rwa [h.good.connect] at this

theorem frames_take (ps : List Packet) (k : Nat) : frames (ps.take k) ≤ frames ps := frames_prefix (List.take_prefix ..)

/-- What the present connection gives. -/
theorem Inv.gives {cap : Nat} {connect : List UInt8} {l : Link} (h : Inv cap connect l) :
    Gives (field connect 80 8) l.starts l.ps (got l.cfg l.pieces) (max (field connect 80 8) l.cfg.next) := by
  rcases h.from_ with e | ⟨cd, k0, up, o, h1, h2, h3, h4⟩
  · have : got l.cfg l.pieces = [] := by
      cases hp : l.pieces with
      | nil => rfl
      | cons q r =>
        exfalso
        have := h.pieces
        rw [hp] at this e
        obtain ⟨addr, b⟩ := q
        have e : b ++ _ = [] := e
        exact this.1 (List.append_eq_nil_iff.1 e).1
    rw [this]; exact gives_nil
  · have hfew := h.few
    have hft := frames_take l.ps k0
    obtain ⟨s1, s2⟩ := session_frames h.length h.hsize h1 h.good.inv.shown.good (by omega) l.cfg h.pieces h4
    rcases s2 with s2 | ⟨s2, n, s3⟩
    · rw [s2]; exact gives_nil
    · rw [s3]
      have hsk := h.skip s2
      rw [s1 s2] at hsk
      refine session_gives (by omega) ?_ ?_
      · unfold KmpLink.skip
        split
        · rw [if_neg (by omega)]; omega
        · omega
      · rcases h.start with hs | hs
        · rw [hs.2] at s2; exact absurd s2 (by decide)
        · exact hs

theorem Inv.keeps {cap : Nat} {connect : List UInt8} {l : Link} (h : Inv cap connect l) (n : Nat) :
    Has (field connect 80 8) l.starts l.ps (l.done ++ (got l.cfg l.pieces).take n)
      (max (field connect 80 8) (nextOf (l.done ++ (got l.cfg l.pieces).take n))) := by
  have hg := h.gives
  have hh := h.has
  rw [h.next] at hg hh
  exact has_keep hh hg n

theorem Inv.kept {cap : Nat} {connect : List UInt8} {l : Link} (h : Inv cap connect l) :
    Has (field connect 80 8) l.starts l.ps l.kept (l.top (field connect 80 8)) := h.keeps l.n

theorem Inv.top {cap : Nat} {connect : List UInt8} {l : Link} (h : Inv cap connect l) :
    l.top (field connect 80 8) ≤ field connect 80 8 + frames l.ps := has_bound h.kept

/-- Keeping more frames raises the top. -/
theorem Inv.top_mono {cap : Nat} {connect : List UInt8} {l : Link} (h : Inv cap connect l) {m : Nat} (hm : l.n ≤ m) :
    l.top (field connect 80 8) ≤ max (field connect 80 8) (nextOf (l.done ++ (got l.cfg l.pieces).take m)) := by
  have h2 := h.keeps m
  unfold Link.top
  cases hl : l.kept.getLast? with
  | none => unfold nextOf; rw [hl]; dsimp only; omega
  | some e =>
    have hk : nextOf l.kept = eventId e + 1 := by unfold nextOf; rw [hl]
    have hmem : e ∈ l.kept := List.mem_of_getLast? hl
    have : e ∈ l.done ++ (got l.cfg l.pieces).take m := by
      rcases List.mem_append.1 hmem with hx | hx
      · exact List.mem_append_left _ hx
      · exact List.mem_append_right _ ((List.take_sublist_take_left hm).subset hx)
    have := of_decide_eq_true (List.mem_filter.1 (h2.1.subset this)).2
    rw [hk]; omega

theorem Inv.cfg_top {cap : Nat} {connect : List UInt8} {l : Link} (h : Inv cap connect l) :
    max (field connect 80 8) l.cfg.next ≤ l.top (field connect 80 8) := by
  have hs := h.keeps 0
  rw [List.take_zero, List.append_nil] at hs
  rw [h.next]
  unfold Link.top
  cases hl : l.done.getLast? with
  | none => unfold nextOf; rw [hl]; dsimp only; omega
  | some e =>
    have hk : nextOf l.done = eventId e + 1 := by unfold nextOf; rw [hl]
    have : e ∈ l.kept := List.mem_append_left _ (List.mem_of_getLast? hl)
    have := of_decide_eq_true (List.mem_filter.1 (h.kept.1.subset this)).2
    unfold Link.top at this
    rw [hk]; omega

theorem inv_start {cap : Nat} {connect : List UInt8} (hc : 0 < cap) (hl : connect.length = 104) (hh : KmpIn.hsize connect = 104)
    (hf : field connect 80 8 < 2 ^ 64 - 1) : Inv cap connect (start (KmpOut.create cap connect)) := by
  refine ⟨hl, hh, KmpOut.good_create hc hf, ?_, (fun _ h => nomatch h), (fun _ h => nomatch h), (fun _ h => nomatch h), trivial,
    Or.inl rfl, ?_, rfl, Nat.le_refl _, Or.inl ⟨rfl, rfl⟩, ⟨List.nil_sublist _, ?_⟩⟩
  · intro u hu; exact nomatch hu
  · intro h; exact absurd (show 104 ≤ 0 from h) (by decide)
  · intro pre p post e; cases pre <;> exact nomatch e

theorem inv_accept {cap : Nat} {connect : List UInt8} {l : Link} (h : Inv cap connect l) (c : Session) (hc : c.next = nextOf l.kept) :
    Inv cap connect { l with done := l.kept, cfg := c, pieces := [], n := 0, ackOps := [],
                             starts := l.starts ++ [max (field connect 80 8) c.next] } := by
  have hk : ({ l with done := l.kept, cfg := c, pieces := [], n := 0, ackOps := [],
                      starts := l.starts ++ [max (field connect 80 8) c.next] } : Link).kept = l.kept := List.append_nil _
  have ht : ({ l with done := l.kept, cfg := c, pieces := [], n := 0, ackOps := [],
                      starts := l.starts ++ [max (field connect 80 8) c.next] } : Link).top (field connect 80 8) =
      l.top (field connect 80 8) := by unfold Link.top; rw [hk]
  refine ⟨h.length, h.hsize, h.good, ?_, ?_, ?_, (fun _ h => nomatch h), trivial, Or.inl rfl, ?_, hc, Nat.le_refl _,
    Or.inr (List.mem_append_right _ (List.mem_singleton.2 rfl)), ?_⟩
  · rw [ht]; exact h.frame
  · rw [ht]; exact h.wires
  · rw [ht]; exact h.acks
  · intro h; exact absurd (show 104 ≤ 0 from h) (by decide)
  · show Has _ _ _ _ (max (field connect 80 8) c.next)
    rw [hc]; exact has_more_starts h.kept

theorem pieces_left : ∀ {n : Nat} {p q : List (Nat × List UInt8)}, Pieces n (p ++ q) → Pieces n p
  | _, [], _, _ => trivial
  | _, (_, _) :: _, _, ⟨h1, h2, h3⟩ => ⟨h1, h2, pieces_left h3⟩

theorem bytes_snoc (p : List (Nat × List UInt8)) (addr : Nat) (b : List UInt8) : bytes (p ++ [(addr, b)]) = bytes p ++ b := by
  unfold bytes
  rw [List.flatMap_append]
  simp

theorem outcome_short {c : Session} {pieces : List (Nat × List UInt8)} (hp : Pieces 0 pieces) (h : (bytes pieces).length < 104) :
    got c pieces = [] := by
  obtain ⟨x, st, hrun, hout⟩ := KmpIn.run_outcome (app c) [] pieces hp
  have hgot : got c pieces = x.log.filter Event.isFrame := by unfold got; rw [hrun]
  generalize hlog : x.log = log at hout hgot
  generalize x.app = xa at hout
  have hx : (pieces.flatMap (·.2)).length < 104 := h
  cases hout with
  | opening h => rw [hgot]; rfl
  | refused h1 h2 => rw [hgot]; rfl
  | rejected h1 h2 h3 => rw [hgot]; rfl
  | connecting h1 h2 h3 h4 => rw [hgot]; rfl
  | packets r st h1 => omega

theorem inv_receive {cap : Nat} {connect : List UInt8} {l : Link} (h : Inv cap connect l) (addr : Nat) (b : List UInt8)
    (hp : Pieces 0 (l.pieces ++ [(addr, b)])) (hw : ∃ w ∈ l.wires, bytes l.pieces ++ b <+: w)
    (hm : 104 ≤ (bytes l.pieces ++ b).length → l.cfg.next ≤ field (bytes l.pieces ++ b) 80 8 + l.cfg.max)
    (hst : l.starts ≠ []) :
    Inv cap connect { l with pieces := l.pieces ++ [(addr, b)] } := by
  have hg := got_more l.cfg hp h.pieces
  have htake : (got l.cfg (l.pieces ++ [(addr, b)])).take l.n = (got l.cfg l.pieces).take l.n := by
    obtain ⟨r, hr⟩ := hg
    rw [← hr, List.take_append_of_le_length h.n]
  have hk : ({ l with pieces := l.pieces ++ [(addr, b)] } : Link).kept = l.kept := by
    unfold Link.kept; dsimp only; rw [htake]
  have ht : ({ l with pieces := l.pieces ++ [(addr, b)] } : Link).top (field connect 80 8) = l.top (field connect 80 8) := by
    unfold Link.top; rw [hk]
  refine ⟨h.length, h.hsize, h.good, by rw [ht]; exact h.frame, by rw [ht]; exact h.wires, by rw [ht]; exact h.acks,
    by rw [ht]; exact h.ops, hp, ?_, by rw [bytes_snoc]; exact hm, h.next, Nat.le_trans h.n hg.length_le, 
    Or.inr (h.start.resolve_left (fun hc => hst hc.1)), h.has⟩
  show From connect l.ps (max (field connect 80 8) l.cfg.next) (bytes (l.pieces ++ [(addr, b)]))
  rw [bytes_snoc]
  obtain ⟨w, hw1, hw2⟩ := hw
  have hfrom := (h.wires w hw1).pre hw2
  by_cases h104 : (bytes l.pieces).length < 104
  · -- nothing of the connection is kept yet
    have h0 := outcome_short (c := l.cfg) h.pieces h104
    have htop : l.top (field connect 80 8) = max (field connect 80 8) l.cfg.next := by
      unfold Link.top Link.kept
      rw [h0, List.take_nil, List.append_nil, h.next]
    rw [← htop]; exact hfrom
  · -- the connection has the same start
    rcases hfrom with hf | ⟨cd, k0, up, o, h1, h2, h3, h4⟩
    · exact Or.inl hf
    · refine Or.inr ⟨cd, k0, up, o, h1, h2, ?_, h4⟩
      have hfew := h.few
      have hft := frames_take l.ps k0
      have hA := (session_frames h.length h.hsize h1 h.good.inv.shown.good (by omega) l.cfg h.pieces
        ((List.prefix_append _ b).trans h4)).1 (by omega)
      rcases h.from_ with hf | ⟨cd', k0', up', o', h1', h2', h3', h4'⟩
      · rw [hf] at h104; exact absurd (by decide) h104
      · have hft' := frames_take l.ps k0'
        have hB := (session_frames h.length h.hsize h1' h.good.inv.shown.good (by omega) l.cfg h.pieces h4').1 (by omega)
        omega

theorem inv_keep {cap : Nat} {connect : List UInt8} {l : Link} (h : Inv cap connect l) (m : Nat) (h1 : l.n ≤ m)
    (h2 : m ≤ (got l.cfg l.pieces).length) : Inv cap connect { l with n := m } := by
  have ht : l.top (field connect 80 8) ≤ ({ l with n := m } : Link).top (field connect 80 8) := h.top_mono h1
  refine ⟨h.length, h.hsize, h.good, ?_, fun w hw => (h.wires w hw).mono ht, fun w hw => (h.acks w hw).mono ht,
    fun i hi => Nat.le_trans (h.ops i hi) ht, h.pieces, h.from_, h.skip, h.next, h2, h.start, h.has⟩
  intro u hu
  obtain ⟨f1, f2, f3⟩ := h.frame u hu
  exact ⟨Nat.le_trans f1 ht, f2, f3⟩

theorem inv_ack {cap : Nat} {connect : List UInt8} {l : Link} (h : Inv cap connect l) (id : Nat) (hid : id ≤ nextOf l.kept) :
    Inv cap connect { l with ackOps := l.ackOps ++ [.ack id] } := by
  refine ⟨h.length, h.hsize, h.good, h.frame, h.wires, h.acks, ?_, h.pieces, h.from_, h.skip, h.next, h.n, h.start, h.has⟩
  intro i hi
  have hi : i ∈ (l.ackOps ++ [KmpInAck.Op.ack id]).filterMap _ := hi
  rw [List.filterMap_append] at hi
  rcases List.mem_append.1 hi with hi | hi
  · exact h.ops i hi
  · have : i = id := by simpa using hi
    rw [this]
    show id ≤ max _ _
    have : nextOf l.kept = nextOf ({ l with ackOps := l.ackOps ++ [.ack id] } : Link).kept := rfl
    omega

theorem ops_bytes {first N : Nat} {ops : List KmpInAck.Op} (h : ∀ i ∈ KmpInAck.acks ops, i ≤ N) :
    AckBytes N (ops.foldl KmpInAck.step (KmpInAck.init first)).sent := by
  obtain ⟨ids, part, next, h1, _, h3, _⟩ := KmpInAck.acks_on_wire first ops
  refine ⟨ids, part, h1.1, ?_, fun i hi => h i (h3 i (List.mem_append_left _ hi))⟩
  have h2 := h1.2
  cases next with
  | none => dsimp only at h2; rw [h2]; decide
  | some id =>
    obtain ⟨n, hn, e⟩ := h2
    rw [e, List.length_take]
    omega

theorem inv_write {cap : Nat} {connect : List UInt8} {l : Link} (h : Inv cap connect l) (room : List Nat) :
    Inv cap connect { l with ackOps := l.ackOps ++ [.write room],
                             ackWires := l.ackWires ++ [({ l with ackOps := l.ackOps ++ [.write room] } : Link).acks] } := by
  have ho : ∀ i ∈ KmpInAck.acks (l.ackOps ++ [.write room]), i ≤ l.top (field connect 80 8) := by
    intro i hi
    have hi : i ∈ (l.ackOps ++ [KmpInAck.Op.write room]).filterMap _ := hi
    rw [List.filterMap_append] at hi
    rcases List.mem_append.1 hi with hi | hi
    · exact h.ops i hi
    · simp at hi
  refine ⟨h.length, h.hsize, h.good, h.frame, h.wires, ?_, ho, h.pieces, h.from_, h.skip, h.next, h.n, h.start, h.has⟩
  intro w hw
  rcases List.mem_append.1 hw with hw | hw
  · exact h.acks w hw
  · rw [List.mem_singleton.1 hw]
    exact ops_bytes ho

theorem good_acked {cap : Nat} {connect : List UInt8} {t : Track} {ps : List Packet} (h : Good true cap connect t ps) :
    AllAcked t.ups := fun u hu => ((h.inv.ups u hu).calm rfl).1

/-- What is on the wire of an upstream. -/
theorem good_from {cap : Nat} {connect : List UInt8} {t : Track} {ps : List Packet} (h : Good true cap connect t ps) {u : Up}
    (hu : u ∈ t.ups) (hd : u.connectData.length ≤ 16 * 1024 * 1024) {N : Nat} (hN : u.frame ≤ N) : From connect ps N u.wire := by
  have hi := h.inv.ups u hu
  obtain ⟨k, hk, _⟩ := hi.acked
  have hf := hk.frame
  rw [h.connect] at hf
  rcases hi.legit with e | ⟨k0, up, o, h1, h2, h3⟩
  · exact Or.inl e
  · rw [h.connect] at h3
    refine Or.inr ⟨u.connectData, k0, up, o, hd, h1, ?_, h3⟩
    have hle : k0 ≤ k := by
      apply Nat.le_of_not_lt
      intro hlt
      have := KmpOut.off_strict h.inv.shown.good hlt h1
      rw [hk.acked] at h2
      omega
    have : frames (ps.take k0) ≤ frames (ps.take k) := by
      apply frames_prefix
      exact List.take_prefix_take_left hle
    omega

theorem allowed_packets {t : Track} {ps ps' : List Packet} {op : Op} (h : KmpOut.Allowed true t ps op ps') : ∃ qs, ps' = ps ++ qs := by
  cases op with
  | packet => obtain ⟨q, e, _⟩ := h; exact ⟨[q], e⟩
  | marked => obtain ⟨q, e, _⟩ := h; exact ⟨[q], e⟩
  | flush => exact ⟨[], by rw [List.append_nil]; exact h⟩
  | add => exact ⟨[], by rw [List.append_nil]; exact h.1⟩
  | del => exact ⟨[], by rw [List.append_nil]; exact h⟩
  | connect => exact ⟨[], by rw [List.append_nil]; exact h⟩
  | writable => exact ⟨[], by rw [List.append_nil]; exact h.1⟩
  | readable => exact ⟨[], by rw [List.append_nil]; exact h⟩
  | timeout => exact ⟨[], by rw [List.append_nil]; exact h⟩

theorem inv_send {cap : Nat} {connect : List UInt8} {l : Link} {op : Op} {t' : Track} {ps' : List Packet}
    (h : Inv cap connect l) (ha : KmpOut.Allowed true l.t l.ps op ps') (e : KmpOut.step l.t op = .ok t')
    (hl : op.first = true → t'.ups.length = l.t.ups.length) (hd : DataOk op) (hh : Hears l op) :
    Inv cap connect { l with t := t', ps := ps', wires := l.wires ++ (t'.ups.take 1).map (·.wire), ackIn := ackIn' l op } := by
  have hgood : Good true cap connect t' ps' := by
    rcases KmpOut.good_step h.good ha with e' | ⟨t2, e', h'⟩
    · rw [e'] at e; exact nomatch e
    · rw [e'] at e
      injection e with e
      rw [← e]; exact h'
  obtain ⟨qs, rfl⟩ := allowed_packets ha
  have htop := h.top
  have hfew := h.few
  -- the link
  have hup : ∀ u', t'.ups[0]? = some u' → u'.frame ≤ l.top (field connect 80 8) ∧
      u'.connectData.length ≤ 16 * 1024 * 1024 ∧ (u'.conn = true → Tail (ackIn' l op) u'.recv) := by
    intro u' hu'
    cases h0 : l.t.ups[0]? with
    | none =>
      have h0 : l.t.ups = [] := by
        cases hx : l.t.ups with
        | nil => rfl
        | cons a b => rw [hx] at h0; exact nomatch h0
      obtain ⟨n1, n2, n3, src, policy, n4⟩ := KmpOut.step_new ha e h0 hu'
      refine ⟨?_, ?_, fun hc => ?_⟩
      · rw [n1, h.good.connect]; unfold Link.top; omega
      · rw [n4] at hd; exact hd
      · rw [n3] at hc; exact nomatch hc
    | some u =>
      obtain ⟨f1, f2, f3⟩ := h.frame u h0
      have hconn : l.conn = u.conn := by unfold Link.conn; rw [h0]
      obtain ⟨v, hv, hF⟩ := KmpOut.step_first (good_acked h.good) ha e hl h0
      rw [hu'] at hv
      injection hv with hv
      subst hv
      have same : KmpOut.Same u u' → ackIn' l op = l.ackIn → u'.frame ≤ l.top (field connect 80 8) ∧
          u'.connectData.length ≤ 16 * 1024 * 1024 ∧ (u'.conn = true → Tail (ackIn' l op) u'.recv) := by
        intro hs ha
        rw [ha, hs.frame, hs.recv, hs.data]
        exact ⟨f1, f2, fun hc => f3 (hs.conn hc)⟩
      cases op with
      | packet => exact same hF rfl
      | marked => exact same hF rfl
      | flush => exact same hF rfl
      | add => exact same hF rfl
      | del => exact same hF rfl
      | writable => exact same hF rfl
      | timeout => exact same hF rfl
      | connect i cd =>
        cases i with
        | succ i => exact same hF rfl
        | zero =>
          have hF : u' = if u.conn then u else KmpOut.connectUp u cd := hF
          have hA : ackIn' l (.connect 0 cd) = if u.conn then l.ackIn else [] := by
            show (if l.conn then _ else _) = _; rw [hconn]
          by_cases hc : u.conn = true
          · rw [if_pos hc] at hF hA
            rw [hA, hF]; exact ⟨f1, f2, f3⟩
          · rw [if_neg hc] at hF hA
            rw [hA, hF]
            exact ⟨f1, hd, fun _ => ⟨0, show 0 < 40 by decide, rfl, rfl⟩⟩
      | readable i b closed allowed =>
        cases i with
        | succ i => exact same hF rfl
        | zero =>
          have hF : if u.conn then KmpOut.readHandler l.t u b closed allowed = .ok (some u') else u' = u := hF
          have hA : ackIn' l (.readable 0 b closed allowed) = if u.conn then l.ackIn ++ b else l.ackIn := by
            show (if l.conn then _ else _) = _; rw [hconn]
          by_cases hc : u.conn = true
          · rw [if_pos hc] at hF hA
            obtain ⟨w, hw, hpre⟩ := hh (by rw [hconn]; exact hc)
            obtain ⟨ids, part, w1, w2, w3⟩ := h.acks w hw
            rw [w1] at hpre
            obtain ⟨r1, r2, r3⟩ := KmpOut.readHandler_keep (N := l.top (field connect 80 8)) (by omega)
              (good_acked h.good u (List.mem_of_getElem? h0)) w2 w3 (f3 hc) hpre hF
            rw [hA, r2]
            exact ⟨by omega, f2, r3⟩
          · rw [if_neg hc] at hF hA
            rw [hA, hF]; exact ⟨f1, f2, f3⟩
  have ht : ({ l with t := t', ps := l.ps ++ qs, wires := l.wires ++ (t'.ups.take 1).map (·.wire), ackIn := ackIn' l op } :
      Link).top (field connect 80 8) = l.top (field connect 80 8) := rfl
  have hct := h.cfg_top
  refine ⟨h.length, h.hsize, hgood, by rw [ht]; exact hup, ?_, by rw [ht]; exact h.acks, by rw [ht]; exact h.ops, h.pieces,
    h.from_.more, h.skip, h.next, h.n, h.start, has_more_packets h.has (Nat.le_trans hct htop)⟩
  rw [ht]
  intro w hw
  rcases List.mem_append.1 hw with hw | hw
  · exact (h.wires w hw).more
  · obtain ⟨u, hu, rfl⟩ := List.mem_map.1 hw
    have h0 : t'.ups[0]? = some u := by
      cases hx : t'.ups with
      | nil => rw [hx] at hu; exact nomatch hu
      | cons a b =>
        rw [hx] at hu
        have hu : u ∈ [a] := hu
        rw [List.mem_singleton.1 hu]; rfl
    obtain ⟨u1, u2, _⟩ := hup u h0
    exact good_from hgood (List.mem_of_getElem? h0) u2 u1

theorem reach_inv {cap : Nat} {connect : List UInt8} {l : Link} (h : Reach cap connect l) : Inv cap connect l := by
  induction h with
  | start h1 h2 _ h4 h5 => exact inv_start h1 h2 h4 h5
  | step _ hs ih =>
    cases hs with
    | send h1 h2 h3 h4 h5 => exact inv_send ih h1 h2 h3 h4 h5
    | accept c h1 => exact inv_accept ih c h1
    | receive addr b h0 h1 h2 h3 => exact inv_receive ih addr b h1 h2 h3 h0
    | keep m h1 h2 => exact inv_keep ih m h1 h2
    | ack id h1 h2 => exact inv_ack ih id h2
    | write room h1 => exact inv_write ih room

/-! ## C23 -/

theorem Inv.all {cap : Nat} {connect : List UInt8} {l : Link} (h : Inv cap connect l) :
    Has (field connect 80 8) l.starts l.ps (l.kept ++ l.pending) (max (field connect 80 8) (nextOf (l.kept ++ l.pending))) := by
  have := h.keeps (got l.cfg l.pieces).length
  rw [List.take_length] at this
  have e : l.kept ++ l.pending = l.done ++ got l.cfg l.pieces := by
    unfold Link.kept Link.pending
    rw [List.append_assoc, List.take_append_drop]
  rw [e]; exact this

/-- C23 (order): the frames that the receiving application has, kept or pending, are frames that the sender wrote, each
at most once, in the order in which they were written, with the ids and the contents they were written with; whatever
connections broke, and wherever. -/
theorem frames_once_partial {cap : Nat} {connect : List UInt8} {l : Link} (h : Reach cap connect l) :
    (l.kept ++ l.pending).Sublist (numbered (field connect 80 8) l.ps) :=
  (reach_inv h).all.1.trans List.filter_sublist

/-- C23 (no loss, receiver): a frame that is due, and was written before some frame that the application has, the
application has too. -/
theorem frames_complete_partial {cap : Nat} {connect : List UInt8} {l : Link} (h : Reach cap connect l) {e : Event}
    (he : e ∈ l.kept ++ l.pending) {pre post : List Packet} {p : Packet} (hp : l.ps = pre ++ p :: post)
    (hd : Due (field connect 80 8) l.starts pre p) (hlt : field connect 80 8 + frames pre ≤ eventId e) :
    p.event (field connect 80 8 + frames pre) ∈ l.kept ++ l.pending := by
  have ha := (reach_inv h).all
  refine ha.2 pre p post hp hd ?_
  have := of_decide_eq_true (List.mem_filter.1 (ha.1.subset he)).2
  omega

/-- C23 (no loss, sender): a frame that is due, and that the sender takes for acknowledged (so that it will not send it
again), is kept by the receiving application. -/
theorem acked_kept_partial {cap : Nat} {connect : List UInt8} {l : Link} (h : Reach cap connect l) {u : Up} (hu : l.t.ups[0]? = some u)
    {pre post : List Packet} {p : Packet} (hp : l.ps = pre ++ p :: post) (hd : Due (field connect 80 8) l.starts pre p)
    (hlt : field connect 80 8 + frames pre < u.frame) : p.event (field connect 80 8 + frames pre) ∈ l.kept := by
  have hi := reach_inv h
  exact hi.kept.2 pre p post hp hd (Nat.lt_of_lt_of_le hlt (hi.frame u hu).1)

theorem closed_prefix : ∀ {L S : List Event}, Sorted L → S.Sublist L →
    (∀ e ∈ S, ∀ x ∈ L, eventId x ≤ eventId e → x ∈ S) → S <+: L
  | [], S, _, hs, _ => by rw [List.sublist_nil.1 hs]; exact List.prefix_rfl
  | x :: L, S, hL, hs, hc => by
    have hcons := List.pairwise_cons.1 hL
    cases S with
    | nil => exact List.nil_prefix
    | cons s S =>
      have hx : x ∈ s :: S := by
        have hmem := hs.subset (List.mem_cons_self ..)
        refine hc s (List.mem_cons_self ..) x (List.mem_cons_self ..) ?_
        rcases List.mem_cons.1 hmem with h | h
        · rw [h]; exact Nat.le_refl _
        · exact Nat.le_of_lt (hcons.1 s h)
      cases hs with
      | cons _ hs' =>
        exfalso
        have := hcons.1 x (hs'.subset hx)
        omega
      | cons_cons _ hs' =>
        rw [List.prefix_cons_inj]
        refine closed_prefix hcons.2 hs' (fun e he y hy hle => ?_)
        rcases List.mem_cons.1 (hc e (List.mem_cons_of_mem _ he) y (List.mem_cons_of_mem _ hy) hle) with h | h
        · exfalso
          have := hcons.1 y hy
          rw [h] at this
          omega
        · exact h

/-- C23: when every frame that was written is due, the frames that the application has are the first ones that were
written: none lost, none twice, none out of order. -/
theorem frames_prefix_written_partial {cap : Nat} {connect : List UInt8} {l : Link} (h : Reach cap connect l)
    (hd : ∀ pre p post, l.ps = pre ++ p :: post → p.isFrame → Due (field connect 80 8) l.starts pre p) :
    l.kept ++ l.pending <+: numbered (field connect 80 8) l.ps := by
  refine closed_prefix (numbered_sorted _ _) (frames_once_partial h) (fun e he x hx hle => ?_)
  obtain ⟨pre, p, post, e1, e2, e3⟩ := mem_numbered hx
  rw [e3]
  rw [e3, event_id] at hle
  exact frames_complete_partial h he e1 (hd pre p post e1 e2) hle

end Verif.KmpLink
