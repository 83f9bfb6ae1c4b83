import Verif.RtmpSim

/-!
# RTMP: one round of the loop
-/

namespace Verif.Rtmp

theorem step_of_more {g : Cfg} (H : Handler) {A : AM} {bb : List UInt8} (h : A.head g bb = .more) : A.step g H bb = .more := by
  unfold AM.step
  rw [h]

theorem step_of_bad {g : Cfg} (H : Handler) {A : AM} {bb : List UInt8} (h : A.head g bb = .bad) : A.step g H bb = .bad := by
  unfold AM.step
  rw [h]

/-- More bytes are needed only when the buffer is not full. -/
theorem mid_more {g : Cfg} {H : Handler} {s : Sess} {A : AM} {b : Link} {bb pend : List UInt8} (h : Mid g s b bb pend) (hc : s.chunk = A.chunk)
    (hs : A.step g H bb = .more) : s.old = none ∧ s.oldSize = 0 ∧ s.changing = false ∧ pend = bb := by
  rcases h.rest with h1 | ⟨_, h2, _⟩
  · exact h1
  · refine absurd hs (step_enough ?_)
    rw [mid_len h, h2, hc]
    exact Nat.le_refl _

theorem headed_sim {g : Cfg} {H : Handler} {s : Sess} {A : AM} {b : Link} {bb pend : List UInt8} (h : Mid g s b bb pend) {fmt n : Nat} {a : AStrm} {h' : Hdr}
    (hcs : s.csid ≠ 0) (hlt : s.csid < g.maxStreams) (hbh : basicHdr bb = some (fmt, s.csid, n)) (ha : A.streams[s.csid]? = some a)
    (hm : Match s { A with streams := A.streams.set s.csid { a with h := h' } })
    (hhd : header fmt n h' A.type3 A.lastTs (bb.drop n) = header fmt n a.h A.type3 A.lastTs (bb.drop n)) (hpos : b.pos = 0) :
    Does g H A bb pend (headed g H s b fmt n bb) := by
  have hlen : s.csid < A.streams.length := (List.getElem?_eq_some_iff.1 ha).1
  have ha' : (A.streams.set s.csid { a with h := h' })[s.csid]? = some { a with h := h' } := List.getElem?_set_self hlen
  obtain ⟨st, hst, hh, hfr⟩ := datas_get hm.datas ha'
  simp only at hh hfr
  obtain ⟨l1, l2, hl12, hset⟩ := set_split hst
  have ht3 : s.type3 = A.type3 := hm.type3
  have hts : s.lastTs = A.lastTs := hm.lastTs
  have hck : s.chunk = A.chunk := hm.chunk
  have hb := h.base
  have hbs := basicHdr_size hbh
  unfold headed
  rw [hst]
  simp only
  rw [hh, ht3, hts, hhd]
  have hflat : ∀ x : Hdr, (s.streams.set s.csid { st with h := x }).flatMap (·.chain) = s.streams.flatMap (·.chain) := by
    intro x
    rw [hset, hl12]
    simp only [List.flatMap_append, List.flatMap_cons]
  cases e : header fmt n a.h A.type3 A.lastTs (bb.drop n) with
  | mk h2 o =>
    cases o with
    | none =>
      have hhead : A.head g bb = .more := by
        unfold AM.head
        rw [hbh]
        simp only
        rw [if_neg (by omega), ha]
        simp only
        rw [e]
      have hs := step_of_more H hhead
      obtain ⟨r1, r2, r3, r4⟩ := mid_more h hck hs
      refine Or.inl ⟨hs, r4, r2, ?_, ?_⟩
      · refine ⟨hb.chunk, hb.live, hb.lt, hb.nodup, hb.oldPool, hb.chg, by simp [hb.streams], ?_, ?_⟩
        · have := hb.ids
          unfold allLinks at this ⊢
          simp only
          rw [hflat]
          exact this
        · intro l hl
          unfold allLinks at hl
          simp only at hl
          rw [hflat] at hl
          exact linkOk_congr (hb.ok l hl) rfl rfl fun m hm => ⟨m, hm, rfl, rfl⟩
      · refine .hdr b ⟨rfl, r1, r2, r3, ?_⟩ fmt n a h2 hcs hpos ?_ hlt ha ?_ ⟨?_, hck, rfl, rfl, hm.log⟩
        · rw [r4]
          exact rd_congr h.data rfl fun m _ hm => hm
        · rw [r4]; exact hbh
        · rw [r4]; exact e
        · simp only
          have hd : Datas s (s.streams.set s.csid { st with h := h2 }) ((A.streams.set s.csid { a with h := h' }).set s.csid { a with h := h2 }) :=
            datas_set (st' := { st with h := h2 }) (a' := { a with h := h2 }) rfl hfr s.csid hm.datas
          rw [List.set_set] at hd
          exact datas_congr hd fun l hl => ⟨rfl, fun m _ hm => hm⟩
    | some hd =>
      simp only
      have hsz := header_size e
      split
      · rename_i hbig
        refine step_of_bad H ?_
        unfold AM.head
        rw [hbh]
        simp only
        rw [if_neg (by omega), ha]
        simp only
        rw [e]
        simp only
        rw [if_pos hbig]
      · rename_i hbig
        obtain ⟨A1, hA1⟩ : ∃ A1 : AM, A1 = { A with streams := A.streams.set s.csid { a with h := hd.h }, type3 := hd.type3, lastTs := hd.lastTs } := ⟨_, rfl⟩
        have hhead : A.head g bb = .ok (A1, s.csid, hd.size) := by
          unfold AM.head
          rw [hbh]
          simp only
          rw [if_neg (by omega), ha]
          simp only
          rw [e]
          simp only
          rw [if_neg hbig, hA1]
        obtain ⟨s1, hs1⟩ : ∃ s1 : Sess, s1 = { s with streams := s.streams.set s.csid { st with h := hd.h }, type3 := hd.type3, lastTs := hd.lastTs } := ⟨_, rfl⟩
        rw [← hs1]
        have hcs1 : s1.csid = s.csid := by rw [hs1]
        have hsz2 := head_ok hhead
        have hbl := hb.ok b (by unfold allLinks; simp)
        have hlen2 := mid_len h
        refine body_sim (A1 := A1) ?_ ?_ (by simp only; omega) (by rw [hcs1]; exact hhead) (by rw [hcs1]; exact hcs)
        · rw [hs1]
          refine ⟨⟨hb.chunk, hb.live, hb.lt, hb.nodup, hb.oldPool, hb.chg, by simp [hb.streams], ?_, ?_⟩, h.cur, ?_, ?_⟩
          · have := hb.ids
            unfold allLinks at this ⊢
            simp only
            rw [hflat]
            exact this
          · intro l hl
            unfold allLinks at hl
            simp only at hl
            rw [hflat, List.append_assoc, List.mem_append] at hl
            rcases hl with hl | hl
            · rw [List.mem_singleton.1 hl]
              obtain ⟨p1, p2, p3⟩ := hbl
              exact ⟨by simp only; omega, p2, p3⟩
            · refine linkOk_congr (hb.ok l ?_) rfl rfl fun m hm => ⟨m, hm, rfl, rfl⟩
              unfold allLinks
              rw [List.append_assoc]
              exact List.mem_append_right _ hl
          · exact rd_congr h.data rfl fun m _ hm => hm
          · rcases h.rest with r | ⟨q1, q2, q3, q4, ob, off, m, q5, q6, q7, q8, q9⟩
            · exact Or.inl r
            · exact Or.inr ⟨q1, q2, q3, q4, ob, off, m, q5, q6, rd_congr q7 rfl fun m _ hm => hm, q8, q9⟩
        · rw [hs1, hA1]
          refine ⟨?_, hck, rfl, rfl, hm.log⟩
          simp only
          have hd' : Datas s (s.streams.set s.csid { st with h := hd.h }) ((A.streams.set s.csid { a with h := h' }).set s.csid { a with h := hd.h }) :=
            datas_set (st' := { st with h := hd.h }) (a' := { a with h := hd.h }) rfl hfr s.csid hm.datas
          rw [List.set_set] at hd'
          exact datas_congr hd' fun l hl => ⟨rfl, fun m _ hm => hm⟩

/-- Where the session is, when a buffer was filled. -/
inductive MidPhase (g : Cfg) (s : Sess) (A : AM) (b : Link) (bb : List UInt8) : Prop where
  | fresh (m : Match s A) (cs : s.csid = 0) (pos : b.pos = 0)
  | hdr (fmt n : Nat) (a : AStrm) (h' : Hdr) (cs : s.csid ≠ 0) (pos : b.pos = 0) (e : basicHdr bb = some (fmt, s.csid, n)) (lt : s.csid < g.maxStreams)
      (st : A.streams[s.csid]? = some a) (m : Match s { A with streams := A.streams.set s.csid { a with h := h' } })
      (hh : header fmt n h' A.type3 A.lastTs (bb.drop n) = header fmt n a.h A.type3 A.lastTs (bb.drop n))
  | data (A1 : AM) (cs : s.csid ≠ 0) (pos : b.pos ≠ 0) (e : A.head g bb = .ok (A1, s.csid, b.pos)) (m : Match s A1)

theorem set_same {α : Type} {l : List α} {c : Nat} {x : α} (h : l[c]? = some x) : l.set c x = l := by
  obtain ⟨l1, l2, e, hs⟩ := set_split h
  rw [hs, ← e]

theorem parse_sim {g : Cfg} {H : Handler} {s : Sess} {A : AM} {b : Link} {bb pend : List UInt8} (h : Mid g s b bb pend) (hne : bb ≠ [])
    (hp : MidPhase g s A b bb) : Does g H A bb pend (parse g H s b) := by
  unfold parse
  cases hp with
  | fresh hm hcs hpos =>
    rw [if_pos hpos, h.data, Res.bind_ok, if_neg hne]
    cases e : basicHdr bb with
    | none =>
      simp only
      have hhead : A.head g bb = .more := by
        unfold AM.head
        rw [e]
      have hs := step_of_more H hhead
      obtain ⟨r1, r2, r3, r4⟩ := mid_more h hm.chunk hs
      have hb := h.base
      refine Or.inl ⟨hs, r4, r2, ⟨hb.chunk, hb.live, hb.lt, hb.nodup, hb.oldPool, hb.chg, hb.streams, hb.ids, hb.ok⟩, ?_⟩
      refine .basic b ⟨rfl, r1, r2, r3, ?_⟩ ⟨?_, hm.chunk, hm.type3, hm.lastTs, hm.log⟩ hcs hpos ?_
      · rw [r4]
        exact rd_congr h.data rfl fun m _ hm => hm
      · exact datas_congr hm.datas fun l hl => ⟨rfl, fun m _ hm => hm⟩
      · rw [r4]; exact e
    | some x =>
      obtain ⟨fmt, c, n⟩ := x
      simp only
      split
      · rename_i hc
        refine step_of_bad H ?_
        unfold AM.head
        rw [e]
        simp only
        rw [if_pos hc]
      · rename_i hc
        have hbs := basicHdr_size e
        have hlen : c < A.streams.length := by rw [datas_len hm.datas, h.base.streams]; omega
        have ha : A.streams[c]? = some A.streams[c] := List.getElem?_eq_getElem hlen
        have hb := h.base
        have hmid : Mid g { s with csid := c } b bb pend := by
          refine ⟨⟨hb.chunk, hb.live, hb.lt, hb.nodup, hb.oldPool, hb.chg, hb.streams, hb.ids, hb.ok⟩, h.cur, rd_congr h.data rfl fun m _ hm => hm, ?_⟩
          rcases h.rest with r | ⟨q1, q2, q3, q4, ob, off, m, q5, q6, q7, q8, q9⟩
          · exact Or.inl r
          · exact Or.inr ⟨q1, q2, q3, q4, ob, off, m, q5, q6, rd_congr q7 rfl fun m _ hm => hm, q8, q9⟩
        refine headed_sim (a := A.streams[c]) (h' := A.streams[c].h) hmid ?_ ?_ e ha ?_ rfl hpos
        · simp only; omega
        · simp only; omega
        · simp only
          rw [show A.streams.set c { A.streams[c] with h := A.streams[c].h } = A.streams from set_same ha]
          exact ⟨datas_congr hm.datas fun l hl => ⟨rfl, fun m _ hm => hm⟩, hm.chunk, hm.type3, hm.lastTs, hm.log⟩
  | hdr fmt n a h' hcs hpos e hlt ha hm hh =>
    rw [if_pos hpos, h.data, Res.bind_ok, if_neg hne, e]
    simp only
    rw [if_neg (by omega), if_neg hcs]
    exact headed_sim h hcs hlt e ha hm hh hpos
  | data A1 hcs hpos e hm =>
    rw [if_neg hpos]
    exact body_sim h hm hpos e hcs

/-! ## Filling a buffer -/

theorem phase_more {g : Cfg} {H : Handler} {s : Sess} {A : AM} {pend : List UInt8} {b : Link} (h : Phase g H s A pend) (hc : s.cur = some b) :
    Held s b pend ∧ A.step g H pend = .more ∧ A.chunk = s.chunk := by
  cases h with
  | idle m cs cur => rw [cur] at hc; cases hc
  | basic b' h m cs pos no =>
    have := h.cur
    rw [hc] at this
    cases this
    refine ⟨h, step_of_more H ?_, m.chunk.symm⟩
    unfold AM.head
    rw [no]
  | hdr b' h fmt n a h' cs pos e lt st no m =>
    have := h.cur
    rw [hc] at this
    cases this
    refine ⟨h, step_of_more H ?_, m.chunk.symm⟩
    unfold AM.head
    rw [e]
    simp only
    rw [if_neg (by omega), st]
    simp only
    rw [no]
  | data b' h A1 cs pos e no m =>
    have := h.cur
    rw [hc] at this
    cases this
    refine ⟨h, (step_of_head H e).1 no, ?_⟩
    rw [m.chunk, (head_ok e).2.2.2.1]

theorem take_ok {g : Cfg} {H : Handler} {s : Sess} {A : AM} {pend : List UInt8} (h : Rel g H s A pend) :
    ∃ heap free b, takeCur s = ({ s with heap := heap, cur := none, free := free }, b) ∧ Base g { s with heap := heap, cur := none, free := free } [b] ∧
      (∀ x : Nat, x < s.heap.length → heap[x]? = s.heap[x]?) ∧ (∀ b', s.cur = some b' → b = b') ∧ (s.cur = none → s.free = [] → b.last = 0 ∧ b.pos = 0) := by
  have hb := h.base
  unfold takeCur
  cases hc : s.cur with
  | some b =>
    refine ⟨s.heap, s.free, b, rfl, ?_, fun x _ => rfl, fun b' hb' => by cases hb'; rfl, by simp⟩
    rw [hc] at hb
    exact ⟨hb.chunk, hb.live, hb.lt, hb.nodup, hb.oldPool, hb.chg, hb.streams, hb.ids, hb.ok⟩
  | none =>
    rw [hc] at hb
    cases hf : s.free with
    | cons b bs =>
      refine ⟨s.heap, bs, b, ?_, ?_, fun x _ => rfl, by simp, by simp⟩
      · simp only [← hc]
      · refine ⟨hb.chunk, hb.live, hb.lt, hb.nodup, hb.oldPool, hb.chg, hb.streams, ?_, ?_⟩
        · have := hb.ids
          unfold allLinks at this ⊢
          rw [hf] at this
          exact this
        · intro l hl
          refine linkOk_congr (hb.ok l ?_) rfl rfl fun m hm => ⟨m, hm, rfl, rfl⟩
          unfold allLinks at hl ⊢
          rw [hf]
          exact hl
    | nil =>
      have hlt : ∀ l ∈ allLinks s [], l.buf < s.heap.length := fun l hl => linkOk_lt (hb.ok l hl)
      refine ⟨_, [], s.alloc.2, ?_, ?_, fun x hx => alloc_old s hx, by simp, fun _ _ => ⟨rfl, rfl⟩⟩
      · show s.alloc = _
        rw [← hc, ← hf]
        rfl
      · have ids := hb.ids
        unfold allLinks at ids hlt
        rw [hf] at ids hlt
        refine ⟨hb.chunk, hb.live, hb.lt, hb.nodup, hb.oldPool, hb.chg, hb.streams, ?_, ?_⟩
        · unfold allLinks
          show (List.map (·.buf) (s.alloc.2 :: ([] ++ s.streams.flatMap (·.chain)))).Nodup
          rw [List.map_cons, List.nodup_cons]
          refine ⟨?_, ids⟩
          intro hm
          obtain ⟨l, hl, e⟩ := List.mem_map.1 hm
          have := hlt l hl
          rw [e] at this
          exact absurd this (Nat.lt_irrefl _)
        · intro l hl
          unfold allLinks at hl
          rcases List.mem_cons.1 hl with rfl | hl
          · exact alloc_link s
          · refine linkOk_congr (hb.ok l ?_) rfl rfl ?_
            · unfold allLinks
              rw [hf]
              exact hl
            · intro m hm
              exact ⟨m, (alloc_old s (hlt l hl)).trans hm, rfl, rfl⟩

theorem wrote_base {g : Cfg} {s s' : Sess} {b : Nat} {ex : List Link} (h : Base g s ex) (hw : Wrote b s s') : Base g s' ex := by
  have e := hw.eq
  have hall : allLinks s' ex = allLinks s ex := by unfold allLinks; rw [e]
  refine ⟨by rw [e]; exact h.chunk, by rw [e]; exact h.live, by rw [e]; exact h.lt, by rw [e]; exact h.nodup, by rw [e]; exact h.oldPool,
    by rw [e]; exact h.chg, by rw [e]; exact h.streams, by rw [hall]; exact h.ids, ?_⟩
  intro l hl
  rw [hall] at hl
  exact linkOk_congr (h.ok l hl) (by rw [e]) (by rw [e]) fun m hm => hw.back _ m hm

theorem wrote_match {g : Cfg} {s s' : Sess} {b : Link} {A : AM} (h : Base g s [b]) (hm : Match s A) (hw : Wrote b.buf s s') : Match s' A := by
  have e := hw.eq
  have hd : Datas s' s.streams A.streams := by
    refine datas_congr hm.datas ?_
    intro l hl
    refine ⟨hw.other _ ?_, fun m _ hm => by rw [e]; exact hm⟩
    have := h.ids
    unfold allLinks at this
    rw [List.append_assoc, List.map_append, List.nodup_append] at this
    intro hne
    refine this.2.2 b.buf (by simp) l.buf ?_ hne.symm
    exact List.mem_map_of_mem (List.mem_append_right _ hl)
  exact ⟨by rw [e]; rw [e] at hd; exact hd, by rw [e]; exact hm.chunk, by rw [e]; exact hm.type3, by rw [e]; exact hm.lastTs, by rw [e]; exact hm.log⟩

/-- Another range of the buffer that is worked on. -/
theorem base_range {g : Cfg} {s : Sess} {b : Link} (h : Base g s [b]) {p l : Nat} (h1 : p ≤ l) (h2 : l ≤ s.chunk + maxHeader) : Base g s [⟨b.buf, p, l⟩] := by
  refine ⟨h.chunk, h.live, h.lt, h.nodup, h.oldPool, h.chg, h.streams, h.ids, ?_⟩
  intro x hx
  unfold allLinks at hx
  rw [List.append_assoc, List.mem_append] at hx
  rcases hx with hx | hx
  · rw [List.mem_singleton.1 hx]
    obtain ⟨_, _, p3⟩ := h.ok b (by unfold allLinks; simp)
    exact ⟨h1, h2, p3⟩
  · refine h.ok x ?_
    unfold allLinks
    rw [List.append_assoc]
    exact List.mem_append_right _ hx

/-- The bytes that a session has after a round. -/
def next (s : Sess) (pend inp : List UInt8) : List UInt8 := if s.oldSize = 0 then pend ++ inp else pend

theorem match_taken {g : Cfg} {s : Sess} {A : AM} (hb : Base g s s.cur.toList) (hm : Match s A) {heap : List Buf} {free : List Link}
    (hh : ∀ x : Nat, x < s.heap.length → heap[x]? = s.heap[x]?) : Match { s with heap := heap, cur := none, free := free } A :=
  ⟨datas_congr hm.datas fun l hl => ⟨hh _ (linkOk_lt (hb.ok l (mem_chains hl))), fun _ _ hm => hm⟩, hm.chunk, hm.type3, hm.lastTs, hm.log⟩

theorem fill_sim {g : Cfg} {H : Handler} {s : Sess} {A : AM} {pend inp : List UInt8} (h : Rel g H s A pend)
    (hin : s.oldSize = 0 → inp ≠ [] ∧ inp.length ≤ room s) : ∃ s' b bb, fill (takeCur s).1 (takeCur s).2 inp = .ok (s', b) ∧
      Mid g s' b bb (next s pend inp) ∧ bb ≠ [] ∧ MidPhase g s' A b bb ∧ ∃ y, next s pend inp = bb ++ y := by
  obtain ⟨heap, free, b, e, hb, hh, hcur, hfree⟩ := take_ok h
  have hroom : room s = if s.old.isSome then ({ s with heap := heap, cur := none, free := free } : Sess).cap b.buf
      else ({ s with heap := heap, cur := none, free := free } : Sess).cap b.buf - b.last := by
    unfold room
    rw [e]
  rw [e]
  obtain ⟨s1, hs1⟩ : ∃ s1 : Sess, s1 = { s with heap := heap, cur := none, free := free } := ⟨_, rfl⟩
  rw [← hs1] at hroom hb ⊢
  simp only
  obtain ⟨p1, p2, m, hm1, hm2, hm3⟩ := hb.ok b (by unfold allLinks; simp)
  have hcap : s1.cap b.buf = s1.chunk + maxHeader := by rw [cap_ok hm1, hm3]
  have hlive : m.pool ∈ s1.live := by rw [hm2]; exact hb.live
  have hpos0 : 0 < s1.chunk + maxHeader := by unfold maxHeader; omega
  have hold : s1.old = s.old := by rw [hs1]
  have hosz : s1.oldSize = s.oldSize := by rw [hs1]
  have hchg : s1.changing = s.changing := by rw [hs1]
  have hcsid : s1.csid = s.csid := by rw [hs1]
  have hc1 : s1.cur = none := by rw [hs1]
  rw [hcap] at hroom
  unfold fill
  cases hc : s.cur with
  | some b' =>
    -- bytes are received after those that are there
    cases hcur b' hc
    obtain ⟨hd, hmore, hch⟩ := phase_more h.phase hc
    rw [hold, hd.old]
    simp only
    obtain ⟨hne, hlen⟩ := hin hd.size
    rw [hroom, hd.old] at hlen
    simp only [Option.isSome_none, Bool.false_eq_true, if_false] at hlen
    obtain ⟨s2, e2, hw, hrd⟩ := wr_ok (bs := inp) (off := b.last) hm1 hlive (by omega)
    rw [e2, Res.bind_ok]
    have hpend : m.mem.take b.last = pend := by
      obtain ⟨m', r1, r2, r3, r4⟩ := rd_inv hd.data
      have hlt : b.buf < s.heap.length := (List.getElem?_eq_some_iff.1 r1).1
      have : s1.heap[b.buf]? = s.heap[b.buf]? := by rw [hs1]; exact hh _ hlt
      rw [this, r1] at hm1
      cases hm1
      rw [r4, List.drop_zero]
    rw [hpend] at hrd
    have hplen : pend.length = b.last := rd_len hd.data
    have hnext : next s pend inp = pend ++ inp := by
      unfold next
      rw [if_pos hd.size]
    have he2 := hw.eq
    have hs2c : s2.csid = s.csid := by rw [he2]; exact hcsid
    rw [hnext]
    refine ⟨s2, _, pend ++ inp, rfl, ⟨?_, ?_, hrd, Or.inl ⟨?_, ?_, ?_, rfl⟩⟩, by simp [hne], ?_, [], by simp⟩
    · refine wrote_base (base_range hb (p := b.pos) (l := b.last + inp.length) (by omega) (by omega)) hw
    · rw [he2]; exact hc1
    · rw [he2]; exact hold.trans hd.old
    · rw [he2]; exact hosz.trans hd.size
    · rw [he2]; exact hchg.trans hd.chg
    · have hmm : ∀ A', Match s A' → Match s2 A' := by
        intro A' hA
        refine wrote_match hb ?_ hw
        rw [hs1]
        exact match_taken h.base hA hh
      have hph := h.phase
      cases hph with
      | idle _ cs cur => rw [cur] at hc; cases hc
      | basic b' h' m cs pos no =>
        have := h'.cur
        rw [hc] at this
        cases this
        exact .fresh (hmm _ m) (by rw [hs2c]; exact cs) pos
      | hdr b' h' fmt n a h'' cs pos e lt st no m =>
        have := h'.cur
        rw [hc] at this
        cases this
        have hbs := basicHdr_size e
        refine .hdr fmt n a h'' (by rw [hs2c]; exact cs) pos ?_ (by rw [hs2c]; exact lt) (by rw [hs2c]; exact st) ?_ ?_
        · rw [hs2c]; exact basicHdr_app e inp
        · rw [hs2c]; exact hmm _ m
        · rw [List.drop_append_of_le_length hbs.2.2.1]
          exact header_again no inp
      | data b' h' A1 cs pos e no m =>
        have := h'.cur
        rw [hc] at this
        cases this
        refine .data A1 (by rw [hs2c]; exact cs) pos ?_ (hmm _ m)
        rw [hs2c]; exact head_app e inp
  | none =>
    have hph := h.phase
    cases hph with
    | basic b' h' => rw [h'.cur] at hc; cases hc
    | hdr b' h' => rw [h'.cur] at hc; cases hc
    | data b' h' => rw [h'.cur] at hc; cases hc
    | idle hmat cs _ old chg init =>
      have hmat1 : Match s1 A := by
        rw [hs1]
        exact match_taken h.base hmat hh
      by_cases hz : s.oldSize = 0
      · -- bytes are received at the start of a buffer
        obtain ⟨hne, hlen⟩ := hin hz
        have hp : pend = [] := by
          have := old.size
          rw [hz] at this
          exact List.eq_nil_of_length_eq_zero this.symm
        have hnext : next s pend inp = inp := by
          unfold next
          rw [if_pos hz, hp, List.nil_append]
        have hncg : s.changing = false := by
          cases hq : s.changing with
          | false => rfl
          | true => exact absurd hz (chg hq)
        rw [hnext]
        have hlen2 : inp.length ≤ s1.chunk + maxHeader := by
          rw [hroom] at hlen
          split at hlen <;> omega
        obtain ⟨s2, e2, hw, hrd⟩ := wr_ok (bs := inp) (off := 0) hm1 hlive (by omega)
        have he2 := hw.eq
        rw [List.take_zero, List.nil_append, Nat.zero_add] at hrd
        have hb2 : Base g s2 [⟨b.buf, 0, inp.length⟩] := wrote_base (base_range hb (Nat.zero_le _) hlen2) hw
        have hm2' : Match s2 A := wrote_match hb hmat1 hw
        rw [hold]
        cases ho : s.old with
        | none =>
          obtain ⟨z1, z2⟩ := hfree hc (init ho)
          simp only
          rw [z1, e2, Res.bind_ok, Nat.zero_add]
          rw [show ({ b with last := inp.length } : Link) = ⟨b.buf, 0, inp.length⟩ by rw [← z2]]
          refine ⟨s2, _, inp, rfl, ⟨hb2, ?_, hrd, Or.inl ⟨?_, ?_, ?_, rfl⟩⟩, hne, .fresh hm2' ?_ rfl, [], by simp⟩
          · rw [he2]; exact hc1
          · rw [he2]; exact hold.trans ho
          · rw [he2]; exact hosz.trans hz
          · rw [he2]; exact hchg.trans hncg
          · rw [he2]; exact hcsid.trans cs
        | some x =>
          obtain ⟨ob, off⟩ := x
          simp only
          rw [if_neg (by rw [hosz]; omega), e2, Res.bind_ok]
          refine ⟨_, _, inp, rfl, ⟨⟨hb2.chunk, hb2.live, hb2.lt, hb2.nodup, hb2.oldPool, hb2.chg, hb2.streams, hb2.ids, hb2.ok⟩, ?_,
            rd_congr hrd rfl fun m _ hm => hm, Or.inl ⟨rfl, ?_, ?_, rfl⟩⟩, hne,
            .fresh ⟨datas_congr hm2'.datas fun l hl => ⟨rfl, fun m _ hm => hm⟩, hm2'.chunk, hm2'.type3, hm2'.lastTs, hm2'.log⟩ ?_ rfl, [], by simp⟩
          · simp only; rw [he2]; exact hc1
          · simp only; rw [he2]; exact hosz.trans hz
          · simp only; rw [he2]; exact hchg.trans hncg
          · simp only; rw [he2]; exact hcsid.trans cs
      · -- bytes are left
        have hnext : next s pend inp = pend := by
          unfold next
          rw [if_neg hz]
        rw [hnext]
        have hsz := old.size
        have hpne : pend ≠ [] := by
          intro hp
          rw [hp] at hsz
          exact hz hsz
        obtain ⟨ob, off, mo, o1, o2, o3, o4⟩ := old.data hpne
        have hlt : ob < s.heap.length := (List.getElem?_eq_some_iff.1 o3).1
        have hob : s1.heap[ob]? = s.heap[ob]? := by rw [hs1]; exact hh _ hlt
        have hrd1 : s1.rd ob off pend.length = .ok pend := rd_congr o2 hob fun m _ hm => by rw [hs1]; exact hm
        rw [hold, o1]
        simp only
        rw [if_pos (by rw [hosz]; exact hz), hosz, hcap, hsz]
        have hrd2 : s1.rd ob off (min (s1.chunk + maxHeader) pend.length) = .ok (pend.take (min (s1.chunk + maxHeader) pend.length)) := by
          have := rd_part hrd1 (k := 0) (j := min (s1.chunk + maxHeader) pend.length) (by omega)
          rw [Nat.add_zero, List.drop_zero] at this
          exact this
        rw [hrd2, Res.bind_ok]
        have hbl : (pend.take (min (s1.chunk + maxHeader) pend.length)).length = min (s1.chunk + maxHeader) pend.length := by
          rw [List.length_take]; omega
        obtain ⟨s2, e2, hw, hrd⟩ := wr_ok (bs := pend.take (min (s1.chunk + maxHeader) pend.length)) (off := 0) hm1 hlive (by omega)
        have he2 := hw.eq
        rw [List.take_zero, List.nil_append, Nat.zero_add, hbl] at hrd
        rw [e2, Res.bind_ok]
        have hm2' : Match s2 A := wrote_match hb hmat1 hw
        split
        · -- all of them fit
          rename_i hfit
          rw [Nat.min_eq_right hfit, List.take_length] at hrd
          have hb2 : Base g s2 [⟨b.buf, 0, pend.length⟩] := wrote_base (base_range hb (Nat.zero_le _) hfit) hw
          have hif : (if s2.changing = true then finalize s2 else s2) = finalize s2 := by
            split
            · rfl
            · rename_i hq
              unfold finalize
              rw [if_neg hq]
          rw [hif]
          obtain ⟨hb3, hch3⟩ := finalize_base hb2
          have hm3' := finalize_match hb2 hm2'
          have hrd3 : (finalize s2).rd b.buf 0 pend.length = .ok pend := by
            obtain ⟨lv, op, e3, f1, _⟩ := finalize_eq hb2.chg
            rw [e3]
            refine rd_congr hrd rfl ?_
            intro m hm _
            rw [(link_pool (hb2.ok ⟨b.buf, 0, pend.length⟩ (by unfold allLinks; simp)) hm).1]
            exact f1 _ hb2.live fun q hq => (hb2.oldPool q hq).symm
          obtain ⟨lv, op, e3, _⟩ := finalize_eq hb2.chg
          refine ⟨_, _, pend, rfl, ⟨⟨hb3.chunk, hb3.live, hb3.lt, hb3.nodup, hb3.oldPool, hb3.chg, hb3.streams, hb3.ids, hb3.ok⟩, ?_,
            rd_congr hrd3 rfl fun m _ hm => hm, Or.inl ⟨rfl, rfl, hch3, rfl⟩⟩, hpne,
            .fresh ⟨datas_congr hm3'.datas fun l hl => ⟨rfl, fun m _ hm => hm⟩, hm3'.chunk, hm3'.type3, hm3'.lastTs, hm3'.log⟩ ?_ rfl, [], by simp⟩
          · simp only; rw [e3, he2]; exact hc1
          · simp only; rw [e3, he2]; exact hcsid.trans cs
        · -- some are left again
          rename_i hfit
          rw [Nat.min_eq_left (by omega)] at hrd hbl
          have hb2 : Base g s2 [⟨b.buf, 0, s1.chunk + maxHeader⟩] := wrote_base (base_range hb (Nat.zero_le _) (Nat.le_refl _)) hw
          have hmp : mo.pool ≠ s.pool := by
            intro hq
            have := o4 hq
            obtain ⟨m', r1, r2, r3, _⟩ := rd_inv o2
            rw [o3] at r1
            cases r1
            have : s1.chunk = s.chunk := by rw [hs1]
            omega
          have hne : ob ≠ b.buf := by
            intro hq
            rw [← hq, hob, o3] at hm1
            cases hm1
            refine hmp (hm2.trans ?_)
            rw [hs1]
          have hob2 : s2.heap[ob]? = s.heap[ob]? := (hw.other ob hne).trans hob
          refine ⟨_, _, pend.take (s1.chunk + maxHeader), rfl, ⟨⟨hb2.chunk, hb2.live, hb2.lt, hb2.nodup, hb2.oldPool, hb2.chg, hb2.streams, hb2.ids, hb2.ok⟩, ?_,
            rd_congr hrd rfl fun m _ hm => hm, Or.inr ⟨?_, ?_, rfl, ?_, ob, off + (s1.chunk + maxHeader), mo, rfl, ?_, ?_, ?_, ?_⟩⟩, ?_,
            .fresh ⟨datas_congr hm2'.datas fun l hl => ⟨rfl, fun m _ hm => hm⟩, hm2'.chunk, hm2'.type3, hm2'.lastTs, hm2'.log⟩ ?_ rfl,
            pend.drop (s1.chunk + maxHeader), by simp⟩
          · simp only; rw [he2]; exact hc1
          · simp only; omega
          · simp only; rw [he2]
          · simp only; omega
          · simp only; omega
          · simp only
            rw [Nat.add_sub_cancel, show s1.chunk + maxHeader + (pend.length - (s1.chunk + maxHeader)) = pend.length by omega]
            refine rd_congr o2 hob2 fun m _ hm => ?_
            simp only
            rw [he2, hs1]
            exact hm
          · simp only; rw [hob2]; exact o3
          · simp only; rw [he2, hs1]; exact hmp
          · intro hq
            rw [hq] at hbl
            simp at hbl
            omega
          · simp only; rw [he2]; exact hcsid.trans cs

theorem does_more {g : Cfg} {H : Handler} {A : AM} {bb pend : List UInt8} {r : Res Sess} (h : Does g H A bb pend r) (hy : ∃ y, pend = bb ++ y) :
    Does g H A pend pend r := by
  obtain ⟨y, hy⟩ := hy
  unfold Does at h ⊢
  cases r with
  | ok s' =>
    rcases h with ⟨h1, h2, h3, h4⟩ | ⟨A', n, h1, h2⟩
    · exact Or.inl ⟨by rw [h2]; exact h1, rfl, h3, h4⟩
    · refine Or.inr ⟨A', n, ?_, h2⟩
      rw [hy, step_app (by rw [h1]; simp)]
      exact h1
  | err =>
    simp only at h ⊢
    rw [hy, step_app (by rw [h]; simp)]
    exact h
  | ub => exact h

theorem iter_sim {g : Cfg} {H : Handler} {s : Sess} {A : AM} {pend inp : List UInt8} (h : Rel g H s A pend)
    (hin : s.oldSize = 0 → inp ≠ [] ∧ inp.length ≤ room s) : Does g H A (next s pend inp) (next s pend inp) (iter g H s inp) := by
  obtain ⟨s', b, bb, e, hm, hne, hp, hy⟩ := fill_sim h hin
  unfold iter
  simp only
  rw [e, Res.bind_ok]
  exact does_more (parse_sim hm hne hp) hy

/-- There is always room for bytes. -/
theorem room_pos {g : Cfg} {H : Handler} {s : Sess} {A : AM} {pend : List UInt8} (h : Rel g H s A pend) : 0 < room s := by
  obtain ⟨heap, free, b, e, hb, hh, hcur, hfree⟩ := take_ok h
  obtain ⟨p1, p2, m, hm1, hm2, hm3⟩ := hb.ok b (by unfold allLinks; simp)
  have hpos0 : 0 < s.chunk + maxHeader := by unfold maxHeader; omega
  unfold room
  rw [e]
  simp only
  rw [cap_ok hm1, hm3]
  simp only
  split
  · exact hpos0
  · rename_i ho
    cases hc : s.cur with
    | some b' =>
      cases hcur b' hc
      obtain ⟨hd, hmore, hch⟩ := phase_more h.phase hc
      have : pend.length < A.chunk + maxHeader := Nat.lt_of_not_le fun hle => step_enough hle hmore
      have := rd_len hd.data
      omega
    | none =>
      have hph := h.phase
      cases hph with
      | basic b' h' => rw [h'.cur] at hc; cases hc
      | hdr b' h' => rw [h'.cur] at hc; cases hc
      | data b' h' => rw [h'.cur] at hc; cases hc
      | idle hmat cs _ old chg init =>
        have := (hfree hc (init (by simpa using ho))).1
        omega

end Verif.Rtmp
