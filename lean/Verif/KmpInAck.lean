import Verif.KmpIn

/-!
# Model of nginx-kmp-in-module/src/ngx_kmp_in.c (sending acks), and property C19

Simplifications: timers are not modelled; when a send fails or the timer is over, the connection ends, and
nothing more happens to the state.
-/

namespace Verif.KmpInAck

/-- A number of `n` bytes, little endian (the host is little endian). -/
def bytesOf : Nat → Nat → List UInt8
  | 0, _ => []
  | n + 1, v => UInt8.ofNat (v % 256) :: bytesOf n (v / 256)

/-- `kmp_ack_frames_packet_t` (ngx_live_kmp.h:225-228, 225-228) as set up in ngx_kmp_in.c:1024-1025; the other
fields are zero from the allocation. KMP_PACKET_ACK_FRAMES is 0x666b6361. -/
def packet (id : Nat) : List UInt8 :=
  bytesOf 4 0x666b6361 ++ bytesOf 4 40 ++ bytesOf 4 0 ++ bytesOf 4 0 ++
  bytesOf 8 id ++ bytesOf 8 0 ++ bytesOf 4 0 ++ bytesOf 4 0

/-- The fields of `ngx_kmp_in_ctx_t` for acks (ngx_kmp_in.h:161-171): `acked_frame_id`,
`ack_packet.a.frame_id`, the offset of `ack_packet_pos`, `writing`. `sent` are the bytes the socket has
taken. -/
structure Ctx where
  acked : Nat
  packetId : Nat
  pos : Nat
  writing : Bool
  sent : List UInt8
deriving Repr, DecidableEq

/-- After the connect packet (ngx_kmp_in.c:1023-1027). -/
def init (first : Nat) : Ctx := { acked := first, packetId := 0, pos := 0, writing := false, sent := [] }

/-- `ngx_kmp_in_ack_frames` (ngx_kmp_in.c:830-855). -/
def ack (x : Ctx) (next : Nat) : Ctx :=
  if next ≤ x.acked then x
  else
    let x := { x with acked := next }
    if x.writing then x
    else { x with packetId := x.acked, pos := 0, writing := true }

/-- The loop of `ngx_kmp_in_write_handler` (ngx_kmp_in.c:775-814). The list says how many bytes the socket is
ready to take at each `ngx_send` (which takes no more than it is given); 0 and the end of the list are
NGX_AGAIN. -/
def sendLoop : Ctx → List Nat → Ctx
  | x, [] => x
  | x, n :: ns =>
    let size := (packet x.packetId).length - x.pos
    let n := min n size
    if n > 0 then
      let x := { x with sent := x.sent ++ ((packet x.packetId).drop x.pos).take n }
      if n < size then { x with pos := x.pos + n }
      else if x.packetId ≠ x.acked then sendLoop { x with packetId := x.acked, pos := 0 } ns
      else { x with writing := false }
    else x

/-- `ngx_kmp_in_write_handler` (ngx_kmp_in.c:751-828). -/
def write (x : Ctx) (room : List Nat) : Ctx :=
  if ¬ x.writing then x else sendLoop x room

/-! ## Specification -/

/-- What can happen. -/
inductive Op where
  | ack (next : Nat)
  | write (room : List Nat)
deriving Repr, DecidableEq

def step (x : Ctx) : Op → Ctx
  | .ack n => ack x n
  | .write r => write x r

/-- The ids the application has acknowledged. -/
def acks (ops : List Op) : List Nat := ops.filterMap fun
  | .ack n => some n
  | .write _ => none

/-- The newest id: the first one, or what was acknowledged. -/
def newest (first : Nat) (ops : List Op) : Nat := (acks ops).foldl max first

/-- The bytes on the wire are whole packets for these ids, and a part of the packet for one more. -/
def Wire (sent : List UInt8) (ids : List Nat) (part : List UInt8) (next : Option Nat) : Prop :=
  sent = ids.flatMap packet ++ part ∧
  match next with
  | none => part = []
  | some id => ∃ n, n < 40 ∧ part = (packet id).take n

/-! ## Lemmas -/

theorem bytesOf_length : ∀ n v, (bytesOf n v).length = n
  | 0, _ => rfl
  | n + 1, v => congrArg Nat.succ (bytesOf_length n (v / 256))

theorem packet_length (id : Nat) : (packet id).length = 40 := by
  unfold packet
  simp only [List.length_append, bytesOf_length]

/-- The invariant. `reqs` are the ids acknowledged so far. -/
structure Inv (first : Nat) (reqs : List Nat) (ids : List Nat) (x : Ctx) : Prop where
  newest : x.acked = reqs.foldl max first
  sorted : (first :: ids).Pairwise (· < ·)
  from_app : ∀ i ∈ ids, i ∈ reqs
  idle : x.writing = false → x.sent = ids.flatMap packet ∧ x.acked = (first :: ids).getLast (by simp)
  busy : x.writing = true → x.pos < 40 ∧ x.sent = ids.flatMap packet ++ (packet x.packetId).take x.pos ∧
    x.packetId ≤ x.acked ∧ (∀ i ∈ first :: ids, i < x.packetId) ∧ x.packetId ∈ reqs

theorem foldl_max_le (l : List Nat) (m : Nat) : m ≤ l.foldl max m ∧ ∀ i ∈ l, i ≤ l.foldl max m := by
  induction l generalizing m with
  | nil => exact ⟨Nat.le_refl _, fun _ h => nomatch h⟩
  | cons a l ih =>
    obtain ⟨h1, h2⟩ := ih (max m a)
    refine ⟨by rw [List.foldl_cons]; omega, fun i hi => ?_⟩
    rw [List.foldl_cons]
    rcases List.mem_cons.mp hi with rfl | hi
    · omega
    · exact h2 i hi

theorem foldl_max_mem (l : List Nat) (m : Nat) : l.foldl max m = m ∨ l.foldl max m ∈ l := by
  induction l generalizing m with
  | nil => exact Or.inl rfl
  | cons a l ih =>
    rw [List.foldl_cons]
    rcases ih (max m a) with h | h
    · rw [h]
      by_cases hm : a ≤ m
      · exact Or.inl (Nat.max_eq_left hm)
      · exact Or.inr (by rw [Nat.max_eq_right (by omega)]; exact List.mem_cons_self ..)
    · exact Or.inr (List.mem_cons_of_mem _ h)

theorem pairwise_snoc {l : List Nat} {a : Nat} (h : l.Pairwise (· < ·)) (ha : ∀ i ∈ l, i < a) :
    (l ++ [a]).Pairwise (· < ·) := by
  rw [List.pairwise_append]
  refine ⟨h, List.pairwise_singleton _ _, fun x hx y hy => ?_⟩
  rw [List.mem_singleton] at hy
  rw [hy]
  exact ha x hx

theorem le_getLast {l : List Nat} (h : l.Pairwise (· < ·)) (hne : l ≠ []) : ∀ i ∈ l, i ≤ l.getLast hne := by
  intro i hi
  rw [← List.dropLast_concat_getLast hne] at hi h
  rcases List.mem_append.mp hi with hi | hi
  · exact Nat.le_of_lt ((List.pairwise_append.mp h).2.2 i hi _ (List.mem_singleton.mpr rfl))
  · rw [List.mem_singleton] at hi
    omega

theorem inv_ack {first : Nat} {reqs ids : List Nat} {x : Ctx} (h : Inv first reqs ids x) (n : Nat) :
    Inv first (reqs ++ [n]) ids (ack x n) := by
  have hnew : (reqs ++ [n]).foldl max first = max x.acked n := by
    rw [List.foldl_append, ← h.newest]
    rfl
  have hmem : ∀ i, i ∈ reqs → i ∈ reqs ++ [n] := fun i hi => List.mem_append_left _ hi
  unfold ack
  by_cases hn : n ≤ x.acked
  · rw [if_pos hn]
    refine ⟨by rw [hnew]; omega, h.sorted, fun i hi => hmem i (h.from_app i hi), h.idle, fun hw => ?_⟩
    obtain ⟨b1, b2, b3, b4, b5⟩ := h.busy hw
    exact ⟨b1, b2, b3, b4, hmem _ b5⟩
  rw [if_neg hn]
  dsimp only
  by_cases hw : x.writing = true
  · rw [if_pos hw]
    refine ⟨by rw [hnew]; dsimp only; omega, h.sorted, fun i hi => hmem i (h.from_app i hi),
      fun hf => absurd (hw.symm.trans hf) (by decide), fun _ => ?_⟩
    obtain ⟨b1, b2, b3, b4, b5⟩ := h.busy hw
    exact ⟨b1, b2, by dsimp only; omega, b4, hmem _ b5⟩
  · rw [if_neg hw]
    obtain ⟨i1, i2⟩ := h.idle (Bool.eq_false_iff.mpr hw)
    refine ⟨by rw [hnew]; dsimp only; omega, h.sorted, fun i hi => hmem i (h.from_app i hi), (fun hf => nomatch hf), fun _ => ?_⟩
    refine ⟨by dsimp only; omega, by dsimp only; rw [i1, List.take_zero, List.append_nil], Nat.le_refl _, ?_,
      List.mem_append_right _ (List.mem_singleton.mpr rfl)⟩
    intro i hi
    have := le_getLast h.sorted (by simp) i hi
    dsimp only
    omega

theorem inv_send {first : Nat} {reqs : List Nat} : ∀ (room : List Nat) (x : Ctx) (ids : List Nat),
    Inv first reqs ids x → x.writing = true → ∃ more, Inv first reqs (ids ++ more) (sendLoop x room)
  | [], x, ids, h, _ => ⟨[], by rw [List.append_nil]; exact h⟩
  | n :: ns, x, ids, h, hw => by
    obtain ⟨b1, b2, b3, b4, b5⟩ := h.busy hw
    unfold sendLoop
    dsimp only
    rw [packet_length]
    generalize hm : min n (40 - x.pos) = m
    have hm40 : m ≤ 40 - x.pos := by omega
    by_cases h0 : m > 0
    · rw [if_pos h0]
      have hsent : x.sent ++ ((packet x.packetId).drop x.pos).take m =
          ids.flatMap packet ++ (packet x.packetId).take (x.pos + m) := by
        rw [b2, List.append_assoc, List.take_add]
      by_cases h1 : m < 40 - x.pos
      · rw [if_pos h1]
        refine ⟨[], ?_⟩
        rw [List.append_nil]
        refine ⟨h.newest, h.sorted, h.from_app, fun hf => absurd (hw.symm.trans hf) (by decide), fun _ => ?_⟩
        exact ⟨by dsimp only; omega, hsent, b3, b4, b5⟩
      · rw [if_neg h1]
        have hfull : x.sent ++ ((packet x.packetId).drop x.pos).take m = (ids ++ [x.packetId]).flatMap packet := by
          rw [hsent, List.take_of_length_le (by rw [packet_length]; omega), List.flatMap_append]
          simp
        have hsorted : (first :: (ids ++ [x.packetId])).Pairwise (· < ·) := by
          rw [← List.cons_append]
          exact pairwise_snoc h.sorted b4
        have happ : ∀ i ∈ ids ++ [x.packetId], i ∈ reqs := by
          intro i hi
          rcases List.mem_append.mp hi with hi | hi
          · exact h.from_app i hi
          · rw [List.mem_singleton] at hi; rw [hi]; exact b5
        by_cases h2 : x.packetId ≠ x.acked
        · rw [if_pos h2]
          obtain ⟨more, hmore⟩ := inv_send ns { x with
            sent := x.sent ++ ((packet x.packetId).drop x.pos).take m, packetId := x.acked, pos := 0 }
            (ids ++ [x.packetId]) (by
              refine ⟨h.newest, hsorted, happ, fun hf => absurd (hw.symm.trans hf) (by decide), fun _ => ?_⟩
              refine ⟨by dsimp only; omega, ?_, Nat.le_refl _, ?_, ?_⟩
              · dsimp only
                rw [hfull, List.take_zero, List.append_nil]
              · intro i hi
                dsimp only
                rw [← List.cons_append] at hi
                rcases List.mem_append.mp hi with hi | hi
                · have := b4 i hi
                  omega
                · rw [List.mem_singleton] at hi; omega
              · dsimp only
                rcases foldl_max_mem reqs first with e | e
                · have hf := b4 first (List.mem_cons_self ..)
                  rw [← h.newest] at e
                  omega
                · rw [h.newest]; exact e) hw
          refine ⟨x.packetId :: more, ?_⟩
          rw [show ids ++ x.packetId :: more = ids ++ [x.packetId] ++ more by simp]
          exact hmore
        · rw [if_neg h2]
          refine ⟨[x.packetId], h.newest, hsorted, happ, fun _ => ⟨hfull, ?_⟩, (fun hf => nomatch hf)⟩
          dsimp only
          rw [List.getLast_cons (by simp), List.getLast_append_right (by simp), List.getLast_singleton]
          exact (Decidable.not_not.mp h2).symm
    · rw [if_neg h0]
      exact ⟨[], by rw [List.append_nil]; exact h⟩

theorem inv_run {first : Nat} : ∀ (ops : List Op) (x : Ctx) (reqs ids : List Nat), Inv first reqs ids x →
    ∃ more, Inv first (reqs ++ acks ops) (ids ++ more) (ops.foldl step x)
  | [], x, reqs, ids, h => ⟨[], by rw [List.append_nil, show acks [] = [] from rfl, List.append_nil]; exact h⟩
  | .ack n :: ops, x, reqs, ids, h => by
    obtain ⟨more, hm⟩ := inv_run ops (ack x n) (reqs ++ [n]) ids (inv_ack h n)
    refine ⟨more, ?_⟩
    rw [show acks (.ack n :: ops) = n :: acks ops from rfl, show reqs ++ n :: acks ops = reqs ++ [n] ++ acks ops by simp]
    exact hm
  | .write r :: ops, x, reqs, ids, h => by
    have hx : ∃ more, Inv first reqs (ids ++ more) (write x r) := by
      unfold write
      by_cases hw : x.writing = true
      · rw [if_neg (not_not_intro hw)]
        exact inv_send r x ids h hw
      · rw [if_pos hw]
        exact ⟨[], by rw [List.append_nil]; exact h⟩
    obtain ⟨more, hm⟩ := hx
    obtain ⟨more2, hm2⟩ := inv_run ops (write x r) reqs (ids ++ more) hm
    refine ⟨more ++ more2, ?_⟩
    rw [← List.append_assoc]
    exact hm2

theorem inv_init (first : Nat) : Inv first [] [] (init first) :=
  ⟨rfl, List.pairwise_singleton _ _, (fun _ h => nomatch h), fun _ => ⟨rfl, rfl⟩, (fun hf => nomatch hf)⟩

/-! ## C19 -/

/-- C19: after any sequence of acknowledgements by the application and of writes that the socket takes in any
pieces, the bytes on the wire are whole ack packets and a part of at most one more. Their ids are greater than
the id of the first frame, strictly increasing, and each was acknowledged by the application. When nothing is
waiting to be written, the last is the newest id. -/
theorem acks_on_wire (first : Nat) (ops : List Op) :
    let x := ops.foldl step (init first)
    ∃ ids part next, Wire x.sent ids part next ∧ (first :: (ids ++ next.toList)).Pairwise (· < ·) ∧
      (∀ i ∈ ids ++ next.toList, i ∈ acks ops) ∧
      (next.isSome ↔ x.writing = true) ∧
      (x.writing = false → (first :: ids).getLast (by simp) = newest first ops) := by
  intro x
  obtain ⟨ids, h⟩ := inv_run ops (init first) [] [] (inv_init first)
  rw [List.nil_append, List.nil_append] at h
  have h : Inv first (acks ops) ids x := h
  by_cases hw : x.writing = true
  · obtain ⟨b1, b2, b3, b4, b5⟩ := h.busy hw
    refine ⟨ids, (packet x.packetId).take x.pos, some x.packetId, ⟨b2, x.pos, b1, rfl⟩, ?_, ?_, ?_, ?_⟩
    · rw [← List.cons_append]
      exact pairwise_snoc h.sorted b4
    · intro i hi
      rcases List.mem_append.mp hi with hi | hi
      · exact h.from_app i hi
      · rw [Option.toList_some, List.mem_singleton] at hi; rw [hi]; exact b5
    · exact ⟨fun _ => hw, fun _ => rfl⟩
    · exact fun hf => absurd (hw.symm.trans hf) (by decide)
  · obtain ⟨i1, i2⟩ := h.idle (Bool.eq_false_iff.mpr hw)
    refine ⟨ids, [], none, ⟨by rw [i1, List.append_nil], rfl⟩, ?_, ?_, ?_, ?_⟩
    · rw [Option.toList_none, List.append_nil]; exact h.sorted
    · rw [Option.toList_none, List.append_nil]; exact h.from_app
    · exact ⟨(fun hf => nomatch hf), fun hf => absurd hf hw⟩
    · intro _
      rw [← i2, h.newest]
      rfl

/-- C19: once the socket takes all it is given (two packets are enough), nothing is waiting any more. -/
theorem write_drains (first : Nat) (ops : List Op) (m n : Nat) (rest : List Nat) (hm : 40 ≤ m) (hn : 40 ≤ n) :
    (write (ops.foldl step (init first)) (m :: n :: rest)).writing = false := by
  obtain ⟨ids, h⟩ := inv_run ops (init first) [] [] (inv_init first)
  generalize ops.foldl step (init first) = x at h
  unfold write
  by_cases hw : x.writing = true
  · rw [if_neg (not_not_intro hw)]
    obtain ⟨b1, -⟩ := h.busy hw
    unfold sendLoop
    dsimp only
    rw [packet_length, Nat.min_eq_right (show 40 - x.pos ≤ m by omega), if_pos (by omega), if_neg (by omega)]
    split
    · unfold sendLoop
      dsimp only
      rw [packet_length, Nat.min_eq_right (show 40 - 0 ≤ n by omega), if_pos (by omega), if_neg (by omega),
        if_neg (fun h => h rfl)]
    · rfl
  · rw [if_pos hw]
    exact Bool.eq_false_iff.mpr hw

/-- The fields of a packet. -/
theorem packet_fields (id : Nat) (h : id < 2 ^ 64) : KmpIn.field (packet id) 0 4 = 0x666b6361 ∧
    KmpIn.field (packet id) 4 4 = 40 ∧ KmpIn.field (packet id) 8 4 = 0 ∧ KmpIn.field (packet id) 16 8 = id := by
  have hle : ∀ n v, v < 256 ^ n → KmpIn.le (bytesOf n v) = v := by
    intro n
    induction n with
    | zero => intro v hv; rw [Nat.pow_zero] at hv; show 0 = v; omega
    | succ n ih =>
      intro v hv
      rw [Nat.pow_succ] at hv
      have hd : v / 256 < 256 ^ n := by
        rw [Nat.div_lt_iff_lt_mul (by decide)]
        exact hv
      show (UInt8.ofNat (v % 256)).toNat + 256 * KmpIn.le (bytesOf n (v / 256)) = v
      rw [ih _ hd]
      have : (UInt8.ofNat (v % 256)).toNat = v % 256 := by
        rw [UInt8.toNat_ofNat']
        omega
      rw [this]
      omega
  have key : ∀ (a b c : List UInt8) (n v : Nat), b = bytesOf n v → v < 256 ^ n →
      KmpIn.field (a ++ b ++ c) a.length n = v := by
    intro a b c n v hb hv
    unfold KmpIn.field
    rw [List.append_assoc, List.drop_left, List.take_append_of_le_length (by rw [hb, bytesOf_length]; omega),
      List.take_of_length_le (by rw [hb, bytesOf_length]; omega), hb, hle n v hv]
  have h2 : (2 : Nat) ^ 64 = 256 ^ 8 := by decide
  refine ⟨?_, ?_, ?_, ?_⟩
  · have := key [] _ (bytesOf 4 40 ++ bytesOf 4 0 ++ bytesOf 4 0 ++ bytesOf 8 id ++ bytesOf 8 0 ++ bytesOf 4 0 ++
      bytesOf 4 0) 4 0x666b6361 rfl (by decide)
    unfold packet
    simpa only [List.append_assoc, List.nil_append, List.length_nil] using this
  · have := key (bytesOf 4 0x666b6361) _ (bytesOf 4 0 ++ bytesOf 4 0 ++ bytesOf 8 id ++ bytesOf 8 0 ++ bytesOf 4 0 ++
      bytesOf 4 0) 4 40 rfl (by decide)
    unfold packet
    simpa only [List.append_assoc, bytesOf_length] using this
  · have := key (bytesOf 4 0x666b6361 ++ bytesOf 4 40) _ (bytesOf 4 0 ++ bytesOf 8 id ++ bytesOf 8 0 ++ bytesOf 4 0 ++
      bytesOf 4 0) 4 0 rfl (by decide)
    unfold packet
    simpa only [List.append_assoc, bytesOf_length, List.length_append] using this
  · have := key (bytesOf 4 0x666b6361 ++ bytesOf 4 40 ++ bytesOf 4 0 ++ bytesOf 4 0) _ (bytesOf 8 0 ++ bytesOf 4 0 ++
      bytesOf 4 0) 8 id rfl (by rw [← h2]; exact h)
    unfold packet
    simpa only [List.append_assoc, bytesOf_length, List.length_append] using this

/-- Acks 5, 7 and 6 after first frame 3; 10 bytes go out, then all. The first packet is for 5, the next for 7. -/
example : ([Op.ack 5, .write [10, 0], .ack 7, .ack 6, .write [100, 12], .write [100]].foldl step (init 3)).sent =
    packet 5 ++ packet 7 := by decide +kernel

end Verif.KmpInAck
