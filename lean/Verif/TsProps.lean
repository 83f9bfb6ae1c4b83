import Verif.TsSafe

/-!
# MPEG-TS: bytes, and the memory of a connection

C73: what is read does not depend on how the bytes arrive, and reading is never undefined. C74: the memory of the packets is bounded by
the limit, and every buffer is in one place.
-/

namespace Verif.Ts

/-! ## One byte after the other -/

/-- One byte is read. A specification: the code reads as many as it can. -/
def St.push (H : Handler) (s : St) (x : UInt8) : Res St :=
  match s.getBuf with
  | none => .ok { s with fail := some .memory }
  | some (b, s) =>
    if (b.mem ++ [x]).length = packetSize then s.readPacket H { b with mem := b.mem ++ [x] }
    else .ok { s with buf := some { b with mem := b.mem ++ [x] } }

/-- Bytes are read one after the other, until there is an error. -/
def St.pushAll (H : Handler) : St → List UInt8 → Res St
  | s, [] => .ok s
  | s, x :: xs => if s.fail.isSome then .ok s else s.push H x >>= fun s => St.pushAll H s xs

theorem pushAll_fail (H : Handler) {s : St} (h : s.fail.isSome) (xs : List UInt8) : s.pushAll H xs = .ok s := by
  cases xs <;> simp [St.pushAll, h]

theorem pushAll_append (H : Handler) (s : St) (xs ys : List UInt8) :
    s.pushAll H (xs ++ ys) = s.pushAll H xs >>= fun s => s.pushAll H ys := by
  induction xs generalizing s with
  | nil => rfl
  | cons x xs ih =>
    simp only [List.cons_append, St.pushAll]
    split
    · rename_i h
      rw [Res.bind_ok, pushAll_fail H h]
    · cases s.push H x with
      | ok s' => simp only [Res.bind_ok]; exact ih s'
      | err => rfl
      | ub => rfl

/-- The state between two bytes: nothing is lost and nothing is in two places. -/
structure St.Inv (memLimit : Nat) (s : St) : Prop where
  sound : s.Sound
  mem : s.memLeft + packetSize * s.made = memLimit
  cnt : ∀ k, s.cnt k = if k < s.made then 1 else 0

theorem init_inv (m : Nat) : (St.init m).Inv m := by
  refine ⟨⟨whole_nil, by simp [St.init], by simp [St.init]⟩, by simp [St.init], fun k => by simp [St.init, St.cnt]⟩

/-- The buffer that is filled was taken out of the lists. -/
theorem getBuf_some {m : Nat} {s s' : St} {b : Buf} (hs : s.Inv m) (h : s.getBuf = some (b, s')) :
    s'.Sound ∧ s'.buf = none ∧ s'.fail = s.fail ∧ b.mem.length < packetSize ∧ b.pos = 0 ∧ s'.log = s.log ∧
    s'.memLeft + packetSize * s'.made = m ∧ ∀ k, s'.cnt k + cnt k [b] = if k < s'.made then 1 else 0 := by
  unfold St.getBuf at h
  split at h
  · rename_i b' hb
    simp only [Option.some.injEq, Prod.mk.injEq] at h
    obtain ⟨rfl, rfl⟩ := h
    obtain ⟨h1, h2⟩ := hs.sound.buf _ hb
    refine ⟨⟨hs.sound.pat, hs.sound.progs, by simp⟩, rfl, rfl, h1, h2, rfl, hs.mem, fun k => ?_⟩
    have := hs.cnt k
    simp only [St.cnt, hb, Option.toList_some, Option.toList_none, cnt_nil] at this ⊢
    omega
  · rename_i hb
    split at h
    · rename_i b' fs hfs
      simp only [Option.some.injEq, Prod.mk.injEq] at h
      obtain ⟨rfl, rfl⟩ := h
      refine ⟨⟨hs.sound.pat, hs.sound.progs, hs.sound.buf⟩, hb, rfl, by show 0 < 188; decide, rfl, rfl, hs.mem, fun k => ?_⟩
      have := hs.cnt k
      rw [cnt_id k ({ id := b'.id } : Buf) b' rfl]
      simp only [St.cnt, hb, hfs, Option.toList_none, cnt_nil] at this ⊢
      rw [cnt_cons] at this
      omega
    · rename_i hfs
      split at h
      · cases h
      · simp only [Option.some.injEq, Prod.mk.injEq] at h
        obtain ⟨rfl, rfl⟩ := h
        refine ⟨⟨hs.sound.pat, hs.sound.progs, hs.sound.buf⟩, hb, rfl, by show 0 < 188; decide, rfl, rfl, ?_, fun k => ?_⟩
        · have := hs.mem
          simp only [packetSize] at *
          omega
        · have := hs.cnt k
          have h1 : cnt k [({ id := s.made } : Buf)] = if s.made = k then 1 else 0 := by
            simp [Ts.cnt, List.count_cons]
          simp only [St.cnt, hb, Option.toList_none, cnt_nil] at this ⊢
          rw [h1]
          repeat' split at this
          all_goals repeat' split
          all_goals omega

/-- The state after a packet. -/
theorem packet_inv (H : Handler) {m : Nat} {s : St} {b : Buf} (h1 : s.Sound) (h2 : b.mem.length = packetSize)
    (h3 : s.memLeft + packetSize * s.made = m) (h4 : ∀ k, s.cnt k + cnt k [b] = if k < s.made then 1 else 0) (hbuf : s.buf = none) :
    ∃ s', s.readPacket H b = .ok s' ∧ (s'.fail = none → s'.Inv m ∧ s'.buf = none) := by
  obtain ⟨s', hs, hk⟩ := readPacket_keeps H h1 h2
  refine ⟨s', hs, fun hf => ?_⟩
  have := hk hf
  refine ⟨⟨this.sound, by rw [this.memLeft, this.made]; exact h3, fun k => ?_⟩, this.buf.trans hbuf⟩
  rw [this.cnt k, this.made]
  exact h4 k

theorem push_inv (H : Handler) {m : Nat} {s : St} (hs : s.Inv m) (x : UInt8) :
    ∃ s', s.push H x = .ok s' ∧ (s'.fail = none → s'.Inv m) := by
  unfold St.push
  split
  · exact ⟨_, rfl, by simp⟩
  · rename_i b s1 hg
    obtain ⟨g1, g2, g3, g4, g5, g5', g6, g7⟩ := getBuf_some hs hg
    have hid : ∀ k, cnt k [({ b with mem := b.mem ++ [x] } : Buf)] = cnt k [b] := fun k => cnt_id k _ _ rfl
    split
    · rename_i hl
      obtain ⟨s', h1, h2⟩ := packet_inv H (b := { b with mem := b.mem ++ [x] }) g1 hl g6 (fun k => by rw [hid]; exact g7 k) g2
      exact ⟨s', h1, fun hf => (h2 hf).1⟩
    · rename_i hl
      refine ⟨_, rfl, fun _ => ⟨⟨g1.pat, g1.progs, ?_⟩, g6, fun k => ?_⟩⟩
      · intro b' hb'
        simp only [Option.some.injEq] at hb'
        subst hb'
        refine ⟨?_, g5⟩
        simp only [List.length_append, List.length_singleton] at hl ⊢
        omega
      · have := g7 k
        rw [← hid k] at this
        simp only [St.cnt, g2, Option.toList_none, cnt_nil, Option.toList_some] at this ⊢
        omega

theorem pushAll_inv (H : Handler) {m : Nat} {s : St} (hs : s.fail = none → s.Inv m) (xs : List UInt8) :
    ∃ s', s.pushAll H xs = .ok s' ∧ (s'.fail = none → s'.Inv m) := by
  induction xs generalizing s with
  | nil => exact ⟨s, rfl, hs⟩
  | cons x xs ih =>
    simp only [St.pushAll]
    split
    · exact ⟨s, rfl, hs⟩
    · rename_i hf
      obtain ⟨s1, h1, h2⟩ := push_inv H (hs (by simpa using hf)) x
      rw [h1]
      exact ih h2

/-! ## The loop reads the bytes one after the other -/

theorem pushAll_cons (H : Handler) {s : St} (hf : s.fail = none) (x : UInt8) (xs : List UInt8) :
    s.pushAll H (x :: xs) = s.push H x >>= fun s => s.pushAll H xs := by
  rw [St.pushAll, if_neg (by simp [hf])]

theorem push_some (H : Handler) {s : St} (hb : s.buf = none) (b : Buf) (x : UInt8) :
    ({ s with buf := some b } : St).push H x =
      if (b.mem ++ [x]).length = packetSize then s.readPacket H { b with mem := b.mem ++ [x] }
      else .ok { s with buf := some { b with mem := b.mem ++ [x] } } := by
  have hbs : ({ s with buf := none } : St) = s := by cases s; simp_all
  simp only [St.push, St.getBuf, hbs]

/-- Bytes that fit into the buffer. -/
theorem push_fill (H : Handler) (ys : List UInt8) (y : UInt8) {s : St} {b : Buf} (hb : s.buf = none) (hf : s.fail = none)
    (hl : b.mem.length + (ys.length + 1) ≤ packetSize) :
    ({ s with buf := some b } : St).pushAll H (y :: ys) =
      if b.mem.length + (ys.length + 1) = packetSize then s.readPacket H { b with mem := b.mem ++ y :: ys }
      else .ok { s with buf := some { b with mem := b.mem ++ y :: ys } } := by
  induction ys generalizing y b with
  | nil =>
    rw [pushAll_cons H (s := { s with buf := some b }) hf, push_some H hb]
    simp only [List.length_append, List.length_singleton, List.length_nil]
    split
    · cases s.readPacket H { b with mem := b.mem ++ [y] } <;> rfl
    · rfl
  | cons z ys ih =>
    simp only [List.length_cons] at hl
    rw [pushAll_cons H (s := { s with buf := some b }) hf, push_some H hb]
    simp only [List.length_append, List.length_singleton]
    rw [if_neg (by omega), Res.bind_ok]
    have := ih z (b := { b with mem := b.mem ++ [y] }) (by simp only [List.length_append, List.length_singleton]; omega)
    rw [this]
    simp only [List.length_append, List.append_assoc, List.singleton_append, List.length_cons, List.length_nil,
      Nat.zero_add]
    have e : b.mem.length + 1 + (ys.length + 1) = b.mem.length + (ys.length + 1 + 1) := by omega
    rw [e]

/-- The first byte can be pushed after the buffer was taken. -/
theorem push_getBuf (H : Handler) {s s1 : St} {b : Buf} (hg : s.getBuf = some (b, s1)) (hb : s1.buf = none) (x : UInt8) :
    s.push H x = ({ s1 with buf := some b } : St).push H x := by
  have hbs : ({ s1 with buf := none } : St) = s1 := by cases s1; simp_all
  simp only [St.push, hg]
  simp only [St.getBuf, hbs]

theorem readBuf_push (H : Handler) {m : Nat} (fuel : Nat) {s : St} (hs : s.Inv m) (hf : s.fail = none) (xs : List UInt8)
    (hfuel : xs.length ≤ fuel) : s.readBuf H fuel xs = s.pushAll H xs := by
  induction fuel generalizing s xs with
  | zero =>
    have : xs = [] := List.eq_nil_of_length_eq_zero (by omega)
    subst this
    simp [St.readBuf, St.pushAll]
  | succ fuel ih =>
    cases xs with
    | nil => simp [St.readBuf, St.pushAll]
    | cons x xs =>
      simp only [List.length_cons] at hfuel
      cases hg : s.getBuf with
      | none =>
        simp only [St.readBuf, hg, St.pushAll, hf, Option.isSome_none, Bool.false_eq_true, if_false, St.push, Res.bind_ok]
        rw [pushAll_fail H (by simp)]
      | some r =>
        obtain ⟨b, s1⟩ := r
        obtain ⟨g1, g2, g3, g4, g5, g5', g6, g7⟩ := getBuf_some hs hg
        have hf1 : s1.fail = none := g3.trans hf
        -- the first packet
        obtain ⟨n, hn⟩ : ∃ n, n = min (packetSize - b.mem.length) (xs.length + 1) := ⟨_, rfl⟩
        have hn1 : 1 ≤ n := by omega
        have hsplit : x :: xs = (x :: xs.take (n - 1)) ++ xs.drop (n - 1) := by simp
        have htk : (x :: xs).take n = x :: xs.take (n - 1) := by
          obtain ⟨k, rfl⟩ : ∃ k, n = k + 1 := ⟨n - 1, by omega⟩
          simp
        have hdr : (x :: xs).drop n = xs.drop (n - 1) := by
          obtain ⟨k, rfl⟩ : ∃ k, n = k + 1 := ⟨n - 1, by omega⟩
          simp
        have hlen : (xs.take (n - 1)).length + 1 = n := by
          rw [List.length_take]
          omega
        have hfill := push_fill H (xs.take (n - 1)) x g2 hf1 (b := b) (by omega)
        rw [hlen] at hfill
        have hfirst : s.pushAll H (x :: xs) = ({ s1 with buf := some b } : St).pushAll H (x :: xs) := by
          rw [pushAll_cons H hf, pushAll_cons H (s := { s1 with buf := some b }) hf1, push_getBuf H hg g2]
        rw [hfirst, hsplit, pushAll_append, hfill, ← hsplit]
        simp only [St.readBuf, hg]
        rw [← hn, htk, hdr]
        have hl2 : (b.mem ++ x :: xs.take (n - 1)).length = b.mem.length + n := by
          simp only [List.length_append, List.length_cons]
          omega
        rw [hl2]
        split
        · rename_i hfull
          obtain ⟨s', h1, h2⟩ := packet_inv H (b := { b with mem := b.mem ++ x :: xs.take (n - 1) }) g1 (by rw [← hfull]; exact hl2) g6
            (fun k => by rw [cnt_id k ({ b with mem := b.mem ++ x :: xs.take (n - 1) } : Buf) b rfl]; exact g7 k) g2
          rw [h1]
          simp only [Res.bind_ok]
          split
          · rename_i hsome
            rw [pushAll_fail H hsome]
          · rename_i hnone
            have hnone : s'.fail = none := by simpa using hnone
            exact ih (h2 hnone).1 hnone _ (by rw [List.length_drop]; omega)
        · rename_i hfull
          simp only [Res.bind_ok]
          refine ih (s := { s1 with buf := some { b with mem := b.mem ++ x :: xs.take (n - 1) } })
            ⟨⟨g1.pat, g1.progs, ?_⟩, g6, fun k => ?_⟩ hf1 (xs.drop (n - 1)) (by rw [List.length_drop]; omega)
          · intro b' hb'
            simp only [Option.some.injEq] at hb'
            subst hb'
            refine ⟨?_, g5⟩
            simp only [hl2]
            omega
          · have := g7 k
            rw [← cnt_id k ({ b with mem := b.mem ++ x :: xs.take (n - 1) } : Buf) b rfl] at this
            simp only [St.cnt, g2, Option.toList_none, cnt_nil, Option.toList_some] at this ⊢
            omega

theorem read_push (H : Handler) {m : Nat} (cs : List (List UInt8)) {s : St} (hs : s.fail = none → s.Inv m) :
    s.read H cs = s.pushAll H cs.flatten := by
  induction cs generalizing s with
  | nil => rfl
  | cons c cs ih =>
    simp only [St.read, List.flatten_cons]
    split
    · rename_i h
      rw [pushAll_fail H h]
    · rename_i h
      have h : s.fail = none := by simpa using h
      rw [readBuf_push H c.length (hs h) h c (Nat.le_refl _), pushAll_append]
      obtain ⟨s1, h1, h2⟩ := pushAll_inv H hs c
      rw [h1]
      exact ih h2

/-! ## C73 -/

/-- The sequence of calls of `ngx_ts_read` during a connection, each with a chain of buffers. A specification. -/
def St.session (H : Handler) : St → List (List (List UInt8)) → Res St
  | s, [] => .ok s
  | s, c :: cs => s.read H c >>= fun s => St.session H s cs

theorem session_push (H : Handler) {m : Nat} (calls : List (List (List UInt8))) {s : St} (hs : s.fail = none → s.Inv m) :
    s.session H calls = s.pushAll H calls.flatten.flatten := by
  induction calls generalizing s with
  | nil => rfl
  | cons c calls ih =>
    simp only [St.session, List.flatten_cons, List.flatten_append]
    rw [read_push H c hs, pushAll_append]
    obtain ⟨s1, h1, h2⟩ := pushAll_inv H hs c.flatten
    rw [h1]
    exact ih h2

/-- C73: a stream of bytes gives the same events, the same error and the same state in whatever pieces it arrives, and for no bytes is
the behaviour of the reader undefined. -/
theorem reading_does_not_depend_on_the_pieces (H : Handler) (memLimit : Nat) (a b : List (List (List UInt8)))
    (h : a.flatten.flatten = b.flatten.flatten) :
    ∃ s, (St.init memLimit).session H a = .ok s ∧ (St.init memLimit).session H b = .ok s := by
  rw [session_push H a (fun _ => init_inv memLimit), session_push H b (fun _ => init_inv memLimit), h]
  obtain ⟨s, h1, _⟩ := pushAll_inv H (fun _ => init_inv memLimit) b.flatten.flatten
  exact ⟨s, h1, h1⟩

/-! ## C74 -/

/-- The numbers of all the buffers that the reader has. -/
def St.ids (s : St) : List Nat :=
  (s.buf.toList ++ s.free ++ s.bufs ++ s.progs.flatMap fun p => p.bufs ++ p.es.flatMap fun e => e.bufs).map Buf.id

theorem cnt_flatMap {α : Type} (k : Nat) (l : List α) (f : α → List Buf) : cnt k (l.flatMap f) = (l.map fun a => cnt k (f a)).sum := by
  induction l with
  | nil => rfl
  | cons a l ih => rw [List.flatMap_cons, cnt_append, ih, List.map_cons, List.sum_cons]

theorem ids_count (k : Nat) (s : St) : s.ids.count k = s.cnt k := by
  have : s.ids.count k = cnt k (s.buf.toList ++ s.free ++ s.bufs ++ s.progs.flatMap fun p => p.bufs ++ p.es.flatMap fun e => e.bufs) := rfl
  rw [this, cnt_append, cnt_append, cnt_append, cnt_flatMap]
  simp only [St.cnt]
  congr 3
  funext p
  rw [cnt_append, cnt_flatMap]
  rfl

/-- C74: while a connection is read, every buffer that was created is in exactly one place, and together they are not more than the
limit of memory. -/
theorem memory_is_bounded (H : Handler) (memLimit : Nat) (calls : List (List (List UInt8))) (s : St)
    (h : (St.init memLimit).session H calls = .ok s) (hf : s.fail = none) :
    s.ids.Nodup ∧ (∀ k, k ∈ s.ids ↔ k < s.made) ∧ packetSize * s.ids.length ≤ memLimit := by
  rw [session_push H calls (fun _ => init_inv memLimit)] at h
  obtain ⟨s', h1, h2⟩ := pushAll_inv H (fun _ => init_inv memLimit) calls.flatten.flatten
  rw [h1] at h
  cases h
  have hi := h2 hf
  have hc : ∀ k, s.ids.count k = if k < s.made then 1 else 0 := fun k => (ids_count k s).trans (hi.cnt k)
  have hmem : ∀ k, k ∈ s.ids ↔ k < s.made := by
    intro k
    have := hc k
    rw [← List.count_pos_iff]
    split at this <;> omega
  have hnd : s.ids.Nodup := by
    rw [List.nodup_iff_count]
    intro k
    have := hc k
    split at this <;> omega
  refine ⟨hnd, hmem, ?_⟩
  have hperm : s.ids.Perm (List.range s.made) := by
    rw [List.perm_iff_count]
    intro k
    rw [hc k]
    have hr : (List.range s.made).Nodup := List.nodup_range
    split
    · rename_i hk
      have h1 := List.nodup_iff_count.mp hr k
      have h2 := List.count_pos_iff.mpr (List.mem_range.mpr hk)
      omega
    · rename_i hk
      exact (List.count_eq_zero_of_not_mem (by rw [List.mem_range]; exact hk)).symm
  rw [hperm.length_eq, List.length_range]
  have := hi.mem
  omega

end Verif.Ts
