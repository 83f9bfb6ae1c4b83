import Verif.RtmpProps

/-!
# RTMP: the pools of a connection

C66. A session has two fields for pools of buffers. The full claim, `Released`, is that when it ends all the pools that it created are
destroyed. It is false, RtmpCases.lean: a change of the chunk size when bytes of the pool before the last change are still to be read
loses a pool. It is proved here for peers that change the chunk size once in a message at most, and never to a smaller one.
-/

namespace Verif.Rtmp

/-- The pools that still exist after the end of the session, ngx_rtmp_init.c:305-311. -/
def closePools (s : Sess) : List Nat :=
  match s.oldPool with
  | some p => (s.live.erase p).erase s.pool
  | none => s.live.erase s.pool

/-- The full claim. -/
def Released : Prop := ∀ (g : Cfg) (H : Handler) (t3 : T3) (bytes : List UInt8) (s : Sess), Run g H (newSess g t3) bytes s → closePools s = []

/-- The chunk size after the messages: each message sets it to the last of its sizes that is allowed. -/
def sizeAfter (H : Handler) : Nat → List Msg → Nat
  | 0, _ => 128
  | k + 1, log => ((H (log.take (k + 1))).getD []).foldl (fun c n => if n < 1 ∨ n > 10485760 then c else n) (sizeAfter H k log)

/-- The messages change the size once at most, and not to a smaller one. -/
def Calm (H : Handler) (log : List Msg) : Prop := ∀ k, k < log.length → ∀ sizes, H (log.take (k + 1)) = some sizes →
  sizes.length ≤ 1 ∧ ∀ n ∈ sizes, n < 1 ∨ n > 10485760 ∨ sizeAfter H k log ≤ n

/-! ## Copies change the heap only -/

theorem wr_heap {s s' : Sess} {b off : Nat} {bs : List UInt8} (h : s.wr b off bs = .ok s') : ∃ hp, s' = { s with heap := hp } := by
  unfold Sess.wr at h
  split at h
  · cases h
  · split at h
    · cases h; exact ⟨_, rfl⟩
    · cases h

theorem copyBuf_heap : ∀ (fuel : Nat) {s : Sess} {done : List Link} {lo : Link} {bs : List UInt8} {x : Sess × List Link × Link},
    copyBuf fuel s done lo bs = .ok x → ∃ hp, x.1 = { s with heap := hp } := by
  intro fuel
  induction fuel with
  | zero => intro s done lo bs x h; cases h
  | succ fuel ih =>
    intro s done lo bs x h
    rw [copyBuf] at h
    split at h
    · cases e : s.wr lo.buf lo.last bs with
      | ok s1 =>
        rw [e] at h
        cases h
        exact wr_heap e
      | err => rw [e] at h; cases h
      | ub => rw [e] at h; cases h
    · cases e : s.wr lo.buf lo.last (bs.take (s.cap lo.buf - lo.last)) with
      | ok s1 =>
        rw [e, Res.bind_ok] at h
        obtain ⟨hp, e1⟩ := wr_heap e
        obtain ⟨hp2, e2⟩ := ih h
        rw [e2]
        exact ⟨hp2, by rw [e1]; rfl⟩
      | err => rw [e] at h; cases h
      | ub => rw [e] at h; cases h

theorem copyChain_heap : ∀ (ls : List Link) {s : Sess} {done : List Link} {lo : Link} {x : Sess × List Link},
    copyChain s done lo ls = .ok x → ∃ hp, x.1 = { s with heap := hp } := by
  intro ls
  induction ls with
  | nil => intro s done lo x h; cases h; exact ⟨s.heap, rfl⟩
  | cons l ls ih =>
    intro s done lo x h
    rw [copyChain] at h
    cases e : s.rd l.buf l.pos (l.last - l.pos) with
    | ok bs =>
      rw [e, Res.bind_ok] at h
      cases e2 : copyBuf (bs.length + 2) s done lo bs with
      | ok y =>
        rw [e2, Res.bind_ok] at h
        obtain ⟨hp, e3⟩ := copyBuf_heap _ e2
        obtain ⟨hp2, e4⟩ := ih h
        exact ⟨hp2, by rw [e4, e3]⟩
      | err => rw [e2] at h; cases h
      | ub => rw [e2] at h; cases h
    | err => rw [e] at h; cases h
    | ub => rw [e] at h; cases h

theorem copyStreams_heap : ∀ (sts : List Strm) {s : Sess} {x : Sess × List Strm}, copyStreams s sts = .ok x → ∃ hp, x.1 = { s with heap := hp } := by
  intro sts
  induction sts with
  | nil => intro s x h; cases h; exact ⟨s.heap, rfl⟩
  | cons st sts ih =>
    intro s x h
    rw [copyStreams] at h
    cases e : (if st.chain = [] then Res.ok (s, []) else copyChain s.alloc.1 [] s.alloc.2 st.chain) with
    | ok y =>
      rw [e, Res.bind_ok] at h
      have hy : ∃ hp, y.1 = { s with heap := hp } := by
        split at e
        · cases e; exact ⟨s.heap, rfl⟩
        · obtain ⟨hp, e2⟩ := copyChain_heap _ e
          exact ⟨hp, by rw [e2]; rfl⟩
      cases e2 : copyStreams y.1 sts with
      | ok z =>
        rw [e2] at h
        cases h
        obtain ⟨hp, e3⟩ := hy
        obtain ⟨hp2, e4⟩ := ih e2
        exact ⟨hp2, by simp only; rw [e4, e3]⟩
      | err => rw [e2] at h; cases h
      | ub => rw [e2] at h; cases h
    | err => rw [e] at h; cases h
    | ub => rw [e] at h; cases h

/-! ## The invariant -/

/-- All the pools are known. -/
structure Tidy (H : Handler) (s : Sess) : Prop where
  live : ∀ p ∈ s.live, p = s.pool ∨ s.oldPool = some p
  quiet : s.changing = false → s.oldPool = none
  left : s.oldSize ≤ s.chunk + maxHeader
  size : s.chunk = sizeAfter H s.log.length s.log

/-- Inside a round, after the bytes were read. -/
structure Neat (H : Handler) (s : Sess) (b : Link) : Prop where
  live : ∀ p ∈ s.live, p = s.pool
  nodup : s.live.Nodup
  lt : ∀ p ∈ s.live, p < s.npools
  oldPool : s.oldPool = none
  chg : s.changing = false
  none : s.oldSize = 0
  last : b.last ≤ s.chunk + maxHeader
  size : s.chunk = sizeAfter H s.log.length s.log

theorem neat_tidy {H : Handler} {s : Sess} {b : Link} (h : Neat H s b) : Tidy H s :=
  ⟨fun p hp => Or.inl (h.live p hp), fun _ => h.oldPool, by rw [h.none]; exact Nat.zero_le _, h.size⟩

theorem keep_neat {s s' : Sess} {b : Link} {extra : Nat} (hz : s.oldSize = 0) (h : keep s b extra = .ok s') :
    ∃ old, s' = { s with old := old, oldSize := extra } := by
  unfold keep at h
  split at h
  · rw [if_neg (by simp [hz])] at h
    cases h; exact ⟨_, rfl⟩
  · cases h; exact ⟨_, rfl⟩

theorem sizeAfter_app (H : Handler) : ∀ (k : Nat) (log : List Msg) (m : Msg), k ≤ log.length → sizeAfter H k (log ++ [m]) = sizeAfter H k log := by
  intro k
  induction k with
  | zero => intro log m _; rfl
  | succ k ih =>
    intro log m h
    rw [sizeAfter, sizeAfter, ih log m (by omega), List.take_append_of_le_length h]

theorem calm_app {H : Handler} {log l : List Msg} (h : Calm H (log ++ l)) : Calm H log := by
  have happ : ∀ (k : Nat) , k ≤ log.length → sizeAfter H k (log ++ l) = sizeAfter H k log := by
    intro k
    induction k with
    | zero => intro _; rfl
    | succ k ih =>
      intro hk
      rw [sizeAfter, sizeAfter, ih (by omega), List.take_append_of_le_length hk]
  intro k hk sizes hs
  have := h k (by rw [List.length_append]; omega) sizes (by rw [List.take_append_of_le_length (by omega)]; exact hs)
  rw [happ k (by omega)] at this
  exact this

theorem finalize_log (s : Sess) : (finalize s).log = s.log := by
  unfold finalize
  by_cases hc : s.changing = true
  · rw [if_pos hc]
    cases s.oldPool <;> rfl
  · rw [if_neg hc]

theorem handle_tidy {H : Handler} {s s' : Sess} {st : Strm} {b : Link} {fsize : Nat} (hn : Neat H s b) (h : handle H s st b fsize = .ok s') :
    ∃ m, s'.log = s.log ++ [m] ∧ (Calm H (s.log ++ [m]) → Tidy H s') := by
  unfold handle at h
  simp only at h
  cases e1 : keep s { b with last := b.pos + fsize } (b.last - b.pos - fsize) with
  | err => rw [e1] at h; cases h
  | ub => rw [e1] at h; cases h
  | ok s1 =>
    rw [e1, Res.bind_ok] at h
    obtain ⟨old, hs1⟩ := keep_neat hn.none e1
    cases e2 : s1.rdAll (st.chain ++ [{ b with last := b.pos + fsize }]) with
    | err => rw [e2] at h; cases h
    | ub => rw [e2] at h; cases h
    | ok data =>
      rw [e2, Res.bind_ok] at h
      obtain ⟨m, hm⟩ : ∃ m : Msg, m = ⟨s1.csid, (st.h.timestamp + st.h.dtime) % 2 ^ 32, st.h.mlen, st.h.type, st.h.msid, data⟩ := ⟨_, rfl⟩
      rw [← hm] at h
      have hlog : s1.log = s.log := by rw [hs1]
      rw [hlog] at h
      split at h
      · cases h
      · rename_i sizes hsz
        obtain ⟨s2, hs2⟩ : ∃ s2 : Sess, s2 = { s1 with
          log := s.log ++ [m]
          streams := s1.streams.set s1.csid ⟨{ st.h with len := 0, timestamp := (st.h.timestamp + st.h.dtime) % 2 ^ 32 }, []⟩, csid := 0 } := ⟨_, rfl⟩
        rw [← hs2] at h
        have hch : s2.chunk = s.chunk := by rw [hs2, hs1]
        have hlv : s2.live = s.live := by rw [hs2, hs1]
        have hpl : s2.pool = s.pool := by rw [hs2, hs1]
        have hop : s2.oldPool = none := by rw [hs2, hs1]; exact hn.oldPool
        have hcg : s2.changing = false := by rw [hs2, hs1]; exact hn.chg
        have hos : s2.oldSize ≤ s.chunk + maxHeader := by
          have := hn.last
          rw [hs2, hs1]
          simp only
          omega
        have hl2 : s2.log = s.log ++ [m] := by rw [hs2]
        have hcalm : Calm H (s.log ++ [m]) → sizes.length ≤ 1 ∧ ∀ n ∈ sizes, n < 1 ∨ n > 10485760 ∨ s.chunk ≤ n := by
          intro hc
          have := hc s.log.length (by simp) sizes (by rw [List.take_of_length_le (by simp)]; exact hsz)
          rw [sizeAfter_app H _ _ _ (Nat.le_refl _), ← hn.size] at this
          exact this
        have hafter : ∀ cs, sizeAfter H (s.log ++ [m]).length (s.log ++ [m]) = cs ↔ sizes.foldl (fun c n => if n < 1 ∨ n > 10485760 then c else n) s.chunk = cs := by
          intro cs
          rw [show (s.log ++ [m]).length = s.log.length + 1 by simp, sizeAfter, sizeAfter_app H _ _ _ (Nat.le_refl _), ← hn.size,
            List.take_of_length_le (by simp), hsz]
          rfl
        -- what the sizes do
        have hset : ∀ (ns : List Nat) {x y : Sess}, setChunks x ns = .ok y → y.log = x.log := by
          intro ns
          induction ns with
          | nil => intro x y h; cases h; rfl
          | cons n ns ih =>
            intro x y h
            rw [setChunks] at h
            cases e : setChunk x n with
            | err => rw [e] at h; cases h
            | ub => rw [e] at h; cases h
            | ok z =>
              rw [e, Res.bind_ok] at h
              rw [ih h]
              unfold setChunk at e
              split at e
              · cases e; rfl
              · rename_i hv
                obtain ⟨x1, hx1⟩ : ∃ x1 : Sess, x1 = { x with
                  oldPool := some x.pool, chunk := n, pool := x.npools, npools := x.npools + 1, live := x.npools :: x.live
                  changing := true, free := [] } := ⟨_, rfl⟩
                rw [← hx1] at e
                cases e5 : copyStreams x1 x.streams with
                | err => rw [e5] at e; cases e
                | ub => rw [e5] at e; cases e
                | ok w =>
                  rw [e5] at e
                  cases e
                  obtain ⟨hp, e6⟩ := copyStreams_heap _ e5
                  simp only
                  rw [e6, hx1]
        cases e3 : setChunks s2 sizes with
        | err => rw [e3] at h; cases h
        | ub => rw [e3] at h; cases h
        | ok s3 =>
          rw [e3] at h
          cases h
          have hl3 : s3.log = s.log ++ [m] := by rw [hset sizes e3, hl2]
          refine ⟨m, ?_, ?_⟩
          · unfold after
            split
            · split
              · rw [finalize_log]
                exact hl3
              · exact hl3
            · exact hl3
          · intro hc
            obtain ⟨hlen, hge⟩ := hcalm hc
            cases sizes with
            | nil =>
              cases e3
              unfold after
              rw [if_neg (by simp [hcg])]
              refine ⟨fun p hp => Or.inl ?_, fun _ => hop, ?_, ?_⟩
              · rw [hpl]; exact hn.live p (by rw [← hlv]; exact hp)
              · simp only; rw [hch]; exact hos
              · simp only
                rw [hl2, hch]
                exact ((hafter s.chunk).2 rfl).symm
            | cons n ns =>
              have hns : ns = [] := by
                cases ns with
                | nil => rfl
                | cons k ks => simp at hlen
              subst hns
              rw [setChunks] at e3
              unfold setChunk at e3
              by_cases hv : n < 1 ∨ n > maxChunk
              · rw [if_pos hv] at e3
                rw [Res.bind_ok] at e3
                cases e3
                unfold after
                rw [if_neg (by simp [hcg])]
                refine ⟨fun p hp => Or.inl ?_, fun _ => hop, ?_, ?_⟩
                · rw [hpl]; exact hn.live p (by rw [← hlv]; exact hp)
                · simp only; rw [hch]; exact hos
                · simp only
                  rw [hl2, hch]
                  refine ((hafter s.chunk).2 ?_).symm
                  simp only [List.foldl_cons, List.foldl_nil]
                  rw [if_pos (by unfold maxChunk at hv; exact hv)]
              · rw [if_neg hv] at e3
                obtain ⟨x1, hx1⟩ : ∃ x1 : Sess, x1 = { s2 with
                  oldPool := some s2.pool, chunk := n, pool := s2.npools, npools := s2.npools + 1, live := s2.npools :: s2.live
                  changing := true, free := [] } := ⟨_, rfl⟩
                rw [← hx1] at e3
                cases e5 : copyStreams x1 s2.streams with
                | err => rw [e5] at e3; cases e3
                | ub => rw [e5] at e3; cases e3
                | ok w =>
                  rw [e5] at e3
                  cases e3
                  obtain ⟨hp, e6⟩ := copyStreams_heap _ e5
                  have hn2 : s.chunk ≤ n := by
                    unfold maxChunk at hv
                    rcases hge n (by simp) with h | h | h <;> omega
                  obtain ⟨y, hy⟩ : ∃ y : Sess, y = { w.1 with streams := w.2 } := ⟨_, rfl⟩
                  rw [← hy] at hl3 ⊢
                  have hye : y = { x1 with heap := hp, streams := w.2 } := by rw [hy, e6]
                  have yc : y.changing = true := by rw [hye, hx1]
                  have yp : y.pool = s2.npools := by rw [hye, hx1]
                  have yo : y.oldPool = some s.pool := by rw [hye, hx1]; simp only; rw [hpl]
                  have yl : y.live = s2.npools :: s.live := by rw [hye, hx1]; simp only; rw [hlv]
                  have ys : y.oldSize = s2.oldSize := by rw [hye, hx1]
                  have yk : y.chunk = n := by rw [hye, hx1]
                  have ysz : y.chunk = sizeAfter H y.log.length y.log := by
                    rw [hl3, yk]
                    refine ((hafter n).2 ?_).symm
                    simp only [List.foldl_cons, List.foldl_nil]
                    rw [if_neg (by unfold maxChunk at hv; exact hv)]
                  have ylive : ∀ p ∈ y.live, p = y.pool ∨ y.oldPool = some p := by
                    intro p hp
                    rw [yl] at hp
                    rcases List.mem_cons.1 hp with h | h
                    · exact Or.inl (by rw [yp]; exact h)
                    · exact Or.inr (by rw [yo, hn.live p h])
                  unfold after
                  rw [if_pos yc]
                  split
                  · unfold finalize
                    rw [if_pos yc, yo]
                    simp only
                    refine ⟨?_, fun _ => rfl, by simp only; omega, ysz⟩
                    intro p hp
                    simp only at hp
                    rw [yl] at hp
                    left
                    simp only
                    rw [yp]
                    have hnp : s2.npools = s.npools := by rw [hs2, hs1]
                    have hnd : (s2.npools :: s.live).Nodup := by
                      refine List.nodup_cons.2 ⟨fun h => ?_, hn.nodup⟩
                      have := hn.lt _ h
                      omega
                    obtain ⟨h1, h2⟩ := hnd.mem_erase_iff.1 hp
                    rcases List.mem_cons.1 h2 with h | h
                    · exact h
                    · exact absurd (hn.live p h) h1
                  · exact ⟨ylive, fun h => (by rw [yc] at h; cases h), by rw [ys, yk]; omega, ysz⟩

theorem body_tidy {H : Handler} {s s' : Sess} {b : Link} (hn : Neat H s b) (h : body H s b = .ok s') :
    ∃ l, s'.log = s.log ++ l ∧ (Calm H s'.log → Tidy H s') := by
  unfold body at h
  split at h
  · cases h
  · split at h
    · cases h
      have := neat_tidy hn
      exact ⟨[], by simp, fun _ => ⟨this.live, this.quiet, this.left, this.size⟩⟩
    · split at h
      · simp only at h
        cases e1 : keep s { b with last := b.pos + s.chunk } (b.last - b.pos - s.chunk) with
        | err => rw [e1] at h; cases h
        | ub => rw [e1] at h; cases h
        | ok s1 =>
          rw [e1] at h
          cases h
          obtain ⟨old, hs1⟩ := keep_neat hn.none e1
          rw [hs1]
          have := hn.last
          exact ⟨[], by simp, fun _ => ⟨fun p hp => Or.inl (hn.live p hp), fun _ => hn.oldPool, by simp only; omega, hn.size⟩⟩
      · obtain ⟨m, h1, h2⟩ := handle_tidy hn h
        exact ⟨[m], h1, by rw [h1]; exact h2⟩

theorem parse_tidy {g : Cfg} {H : Handler} {s s' : Sess} {b : Link} (hn : Neat H s b) (h : parse g H s b = .ok s') :
    ∃ l, s'.log = s.log ++ l ∧ (Calm H s'.log → Tidy H s') := by
  have ht := neat_tidy hn
  unfold parse at h
  split at h
  · cases e : s.rd b.buf 0 b.last with
    | err => rw [e] at h; cases h
    | ub => rw [e] at h; cases h
    | ok bs =>
      rw [e, Res.bind_ok] at h
      split at h
      · cases h
      · split at h
        · cases h
          exact ⟨[], by simp, fun _ => ⟨ht.live, ht.quiet, ht.left, ht.size⟩⟩
        · rename_i fmt c n _
          split at h
          · cases h
          · obtain ⟨s1, hs1⟩ : ∃ s1 : Sess, s1 = if s.csid = 0 then { s with csid := c } else s := ⟨_, rfl⟩
            rw [← hs1] at h
            have h1 : Neat H s1 b ∧ s1.log = s.log := by
              rw [hs1]
              split
              · exact ⟨⟨hn.live, hn.nodup, hn.lt, hn.oldPool, hn.chg, hn.none, hn.last, hn.size⟩, rfl⟩
              · exact ⟨hn, rfl⟩
            obtain ⟨hn1, hl1⟩ := h1
            have ht1 := neat_tidy hn1
            unfold headed at h
            split at h
            · cases h
            · split at h
              · cases h
                exact ⟨[], by simp [hl1], fun _ => ⟨ht1.live, ht1.quiet, ht1.left, ht1.size⟩⟩
              · split at h
                · cases h
                · rename_i st _ _ hd _ _
                  have := body_tidy (by exact ⟨hn1.live, hn1.nodup, hn1.lt, hn1.oldPool, hn1.chg, hn1.none, hn1.last, hn1.size⟩) h
                  simp only at this
                  rw [hl1] at this
                  exact this
  · exact body_tidy hn h

theorem phase_chg {g : Cfg} {H : Handler} {s : Sess} {A : AM} {pend : List UInt8} (h : Rel g H s A pend) (hc : s.changing = true) :
    s.oldSize ≠ 0 ∧ s.old.isSome = true := by
  have hph := h.phase
  cases hph with
  | idle m cs cur old chg =>
    have h1 := chg hc
    refine ⟨h1, ?_⟩
    obtain ⟨ob, off, m, h2, _⟩ := old.data (by
      intro hp
      have := old.size
      rw [hp] at this
      exact h1 this)
    rw [h2]; rfl
  | basic b h => rw [h.chg] at hc; cases hc
  | hdr b h => rw [h.chg] at hc; cases hc
  | data b h => rw [h.chg] at hc; cases hc

theorem fill_neat {g : Cfg} {H : Handler} {s s' : Sess} {A : AM} {pend inp : List UInt8} {b' : Link} (h : Rel g H s A pend) (ht : Tidy H s)
    (hin : s.oldSize = 0 → inp.length ≤ room s) (hf : fill (takeCur s).1 (takeCur s).2 inp = .ok (s', b')) : Neat H s' b' ∧ s'.log = s.log := by
  obtain ⟨heap, free, b, e, hb, hh, hcur, hfree⟩ := take_ok h
  obtain ⟨p1, p2, m, hm1, hm2, hm3⟩ := hb.ok b (by unfold allLinks; simp)
  have hcap : ({ s with heap := heap, cur := none, free := free } : Sess).cap b.buf = s.chunk + maxHeader := by rw [cap_ok hm1, hm3]
  have hroom : room s = if s.old.isSome then s.chunk + maxHeader else s.chunk + maxHeader - b.last := by
    unfold room
    rw [e]
    simp only
    rw [hcap]
  rw [e] at hf
  obtain ⟨s1, hs1⟩ : ∃ s1 : Sess, s1 = { s with heap := heap, cur := none, free := free } := ⟨_, rfl⟩
  simp only at hf
  rw [← hs1] at hf hcap hb hm1 hm2 hm3 p2
  have t1 : Tidy H s1 := by rw [hs1]; exact ⟨ht.live, ht.quiet, ht.left, ht.size⟩
  have ec : s1.changing = s.changing := by rw [hs1]
  have eo : s1.old = s.old := by rw [hs1]
  have es : s1.oldSize = s.oldSize := by rw [hs1]
  have ek : s1.chunk = s.chunk := by rw [hs1]
  have el : s1.log = s.log := by rw [hs1]
  clear hs1
  -- after a write when nothing changes
  have still : ∀ {s2 : Sess} {off : Nat} {bs : List UInt8}, s.oldSize = 0 → s1.wr b.buf off bs = .ok s2 →
      ∀ (o : Option (Nat × Nat)) (x : Link), x.last ≤ s1.chunk + maxHeader → Neat H { s2 with old := o } x ∧ s2.log = s.log := by
    intro s2 off bs hz hw o x hx
    obtain ⟨hp, e2⟩ := wr_heap hw
    have hcf : s1.changing = false := by
      rw [ec]
      cases hc : s.changing with
      | false => rfl
      | true => exact absurd hz (phase_chg h hc).1
    have hop := t1.quiet hcf
    rw [e2]
    refine ⟨⟨fun p hp => ?_, hb.nodup, hb.lt, hop, hcf, by simp only; rw [es, hz], hx, t1.size⟩, el⟩
    rcases t1.live p hp with h | h
    · exact h
    · rw [hop] at h; cases h
  unfold fill at hf
  split at hf
  · rename_i ob off hold
    have hsome : s.old.isSome = true := by rw [← eo, hold]; rfl
    split at hf
    · rename_i hz
      cases e1 : s1.rd ob off (min (s1.cap b.buf) s1.oldSize) with
      | err => rw [e1] at hf; cases hf
      | ub => rw [e1] at hf; cases hf
      | ok bs =>
        rw [e1, Res.bind_ok] at hf
        cases e2 : s1.wr b.buf 0 bs with
        | err => rw [e2] at hf; cases hf
        | ub => rw [e2] at hf; cases hf
        | ok s2 =>
          rw [e2, Res.bind_ok] at hf
          have hle : s1.oldSize ≤ s1.cap b.buf := by rw [hcap, es]; have := ht.left; omega
          rw [if_pos hle] at hf
          cases hf
          obtain ⟨hp, e3⟩ := wr_heap e2
          have t2 : Tidy H s2 := by rw [e3]; exact ⟨t1.live, t1.quiet, t1.left, t1.size⟩
          have b2 : s2.live.Nodup ∧ (∀ p ∈ s2.live, p < s2.npools) ∧ (∀ p, s2.oldPool = some p → p ≠ s2.pool) ∧
              (s2.changing = true → s2.oldPool.isSome = true) := by rw [e3]; exact ⟨hb.nodup, hb.lt, hb.oldPool, hb.chg⟩
          have k2 : s2.chunk = s1.chunk := by rw [e3]
          have l2 : s2.log = s.log := by rw [e3]; exact el
          have z2 : s1.oldSize ≤ s1.chunk + maxHeader := t1.left
          clear e3
          cases hc : s2.changing with
          | false =>
            rw [if_neg (by simp)]
            have hop := t2.quiet hc
            refine ⟨⟨fun p hp => ?_, b2.1, b2.2.1, hop, hc, rfl, by simp only; rw [k2]; exact z2, t2.size⟩, l2⟩
            rcases t2.live p hp with h | h
            · exact h
            · rw [hop] at h; cases h
          | true =>
            rw [if_pos rfl]
            obtain ⟨q, hq⟩ := Option.isSome_iff_exists.1 (b2.2.2.2 hc)
            have hfin : finalize s2 = { s2 with live := s2.live.erase q, oldPool := none, changing := false } := by
              unfold finalize
              rw [if_pos hc, hq]
            rw [hfin]
            refine ⟨⟨fun p hp => ?_, b2.1.erase q, fun p hp => b2.2.1 p (List.mem_of_mem_erase hp), rfl, rfl, rfl, by simp only; rw [k2]; exact z2, t2.size⟩, l2⟩
            obtain ⟨h1, h2⟩ := b2.1.mem_erase_iff.1 hp
            rcases t2.live p h2 with h | h
            · exact h
            · rw [hq] at h
              cases h
              exact absurd rfl h1
    · rename_i hz
      have hz' : s.oldSize = 0 := by
        rw [es] at hz
        simpa using hz
      cases e1 : s1.wr b.buf 0 inp with
      | err => rw [e1] at hf; cases hf
      | ub => rw [e1] at hf; cases hf
      | ok s2 =>
        rw [e1] at hf
        cases hf
        have hi := hin hz'
        rw [hroom, if_pos hsome] at hi
        exact still hz' e1 none ⟨b.buf, 0, inp.length⟩ (by rw [ek]; exact hi)
  · rename_i hold
    have hnone : ¬ s.old.isSome = true := by rw [← eo, hold]; simp
    have hz' : s.oldSize = 0 := by
      have hph := h.phase
      cases hph with
      | idle m cs cur old chg =>
        rw [old.size]
        cases pend with
        | nil => rfl
        | cons x xs =>
          obtain ⟨ob, off, m, h2, _⟩ := old.data (by simp)
          rw [h2] at hnone
          simp at hnone
      | basic b h => exact h.size
      | hdr b h => exact h.size
      | data b h => exact h.size
    cases e1 : s1.wr b.buf b.last inp with
    | err => rw [e1] at hf; cases hf
    | ub => rw [e1] at hf; cases hf
    | ok s2 =>
      rw [e1] at hf
      cases hf
      have hi := hin hz'
      rw [hroom, if_neg hnone] at hi
      have := still hz' e1 s'.old { b with last := b.last + inp.length } (by simp only; omega)
      exact this

theorem iter_tidy {g : Cfg} {H : Handler} {s s' : Sess} {A : AM} {pend inp : List UInt8} (h : Rel g H s A pend) (ht : Calm H s.log → Tidy H s)
    (hin : s.oldSize = 0 → inp ≠ [] ∧ inp.length ≤ room s) (hi : iter g H s inp = .ok s') : Calm H s'.log → Tidy H s' := by
  intro hc
  -- the messages before were calm as well
  have hlog : ∃ l, s'.log = s.log ++ l := by
    have := iter_sim h hin
    rw [hi] at this
    rcases this with ⟨_, _, _, h3⟩ | ⟨A', n, h1, h2⟩
    · exact ⟨[], by rw [(rel_log h3).1, (rel_log h).1, List.append_nil]⟩
    · obtain ⟨l, hl⟩ := step_log h1
      exact ⟨l, by rw [(rel_log h2).1, (rel_log h).1, hl]⟩
  obtain ⟨l, hl⟩ := hlog
  have ht' := ht (calm_app (by rw [← hl]; exact hc))
  unfold iter at hi
  simp only at hi
  cases e : fill (takeCur s).1 (takeCur s).2 inp with
  | err => rw [e] at hi; cases hi
  | ub => rw [e] at hi; cases hi
  | ok y =>
    rw [e, Res.bind_ok] at hi
    obtain ⟨hn, _⟩ := fill_neat h ht' (fun hz => (hin hz).2) e
    obtain ⟨_, _, h2⟩ := parse_tidy hn hi
    exact h2 hc

/-! ## C66 -/

theorem run_tidy {g : Cfg} {H : Handler} {t3 : T3} {bytes : List UInt8} {s : Sess} (h : Run g H (newSess g t3) bytes s) : Calm H s.log → Tidy H s := by
  induction h with
  | init =>
    intro _
    refine ⟨?_, fun _ => rfl, Nat.zero_le _, rfl⟩
    intro p hp
    simp [newSess] at hp
    exact Or.inl hp
  | again h hz e ih =>
    obtain ⟨A, pend, _, hrel⟩ := run_rel h
    exact iter_tidy hrel ih (fun hq => absurd hq hz) e
  | recv inp h hz hne hlen e ih =>
    obtain ⟨A, pend, _, hrel⟩ := run_rel h
    exact iter_tidy hrel ih (fun _ => ⟨hne, hlen⟩) e

/-- All the pools are destroyed when the session ends. -/
theorem pools_released_partial {g : Cfg} {H : Handler} {t3 : T3} {bytes : List UInt8} {s : Sess} (h : Run g H (newSess g t3) bytes s)
    (hc : Calm H s.log) : closePools s = [] := by
  have ht := run_tidy h hc
  obtain ⟨A, pend, _, hrel⟩ := run_rel h
  have hnd := hrel.base.nodup
  unfold closePools
  cases ho : s.oldPool with
  | none =>
    simp only
    rw [List.eq_nil_iff_forall_not_mem]
    intro p hp
    obtain ⟨h1, h2⟩ := hnd.mem_erase_iff.1 hp
    rcases ht.live p h2 with h | h
    · exact h1 h
    · rw [ho] at h; cases h
  | some q =>
    simp only
    rw [List.eq_nil_iff_forall_not_mem]
    intro p hp
    obtain ⟨h1, h2⟩ := (hnd.erase q).mem_erase_iff.1 hp
    obtain ⟨h3, h4⟩ := hnd.mem_erase_iff.1 h2
    rcases ht.live p h4 with h | h
    · exact h1 h
    · rw [ho] at h
      cases h
      exact h3 rfl

/-- At any time there are two pools at most. -/
theorem pools_two_partial {g : Cfg} {H : Handler} {t3 : T3} {bytes : List UInt8} {s : Sess} (h : Run g H (newSess g t3) bytes s)
    (hc : Calm H s.log) : s.live.length ≤ 2 ∧ (Waits s → s.live.length = 1) := by
  have ht := run_tidy h hc
  obtain ⟨A, pend, _, hrel⟩ := run_rel h
  have hnd := hrel.base.nodup
  have hpool := hrel.base.live
  constructor
  · match hl : s.live, hnd, ht.live with
    | [], _, _ => simp
    | [_], _, _ => simp
    | [_, _], _, _ => simp
    | a :: b :: c :: r, hn, hall =>
      exfalso
      simp only [List.nodup_cons, List.mem_cons, not_or] at hn
      have ha := hall a (by simp)
      have hb := hall b (by simp)
      have hcc := hall c (by simp)
      rcases ha with ha | ha <;> rcases hb with hb | hb <;> rcases hcc with hcc | hcc <;>
        first | (subst ha; subst hb; omega) | (subst ha; subst hcc; omega) | (subst hb; subst hcc; omega) | (rw [ha] at hb; cases hb; omega) |
          (rw [ha] at hcc; cases hcc; omega) | (rw [hb] at hcc; cases hcc; omega)
  · intro hw
    have hcf : s.changing = false := by
      cases hch : s.changing with
      | false => rfl
      | true => exact absurd hw (phase_chg hrel hch).1
    have hop := ht.quiet hcf
    have hall : ∀ p ∈ s.live, p = s.pool := by
      intro p hp
      rcases ht.live p hp with h | h
      · exact h
      · rw [hop] at h; cases h
    match hl : s.live, hnd, hall, hpool with
    | [], _, _, hp => cases hp
    | [_], _, _, _ => rfl
    | a :: b :: r, hn, ha, _ =>
      exfalso
      simp only [List.nodup_cons, List.mem_cons, not_or] at hn
      exact hn.1.1 ((ha a (by simp)).trans (ha b (by simp)).symm)

end Verif.Rtmp
