import Verif.KmpOut
import Verif.BufStreamProps

/-!
# The buffers of a KMP track hold the end of the byte string that was written (lemmas for C20, C21, C22)
-/

namespace Verif.KmpOut

open Verif.BufStream (Stream)

/-- The number of the first byte of the active node. -/
def top (t : Track) : Nat := (t.base + t.nodes.length - 1) * t.cap

/-- The number of the first byte behind the queue. -/
def total (t : Track) : Nat := (t.base + t.nodes.length) * t.cap

/-- The number of bytes that were handed to the upstreams. -/
def sofar (t : Track) : Nat := top t + t.pos

/-- The queue of the track holds the bytes of `S` from its first node on. -/
structure Mem (t : Track) (S : List UInt8) : Prop where
  cap     : 0 < t.cap
  size    : ∀ b ∈ t.nodes, b.length = t.cap
  written : t.written = S.length
  empty   : t.nodes = [] → t.base = 0 ∧ S = [] ∧ t.last = 0
  place   : t.nodes ≠ [] → top t + t.last = S.length
  last    : t.last ≤ t.cap
  pos     : t.pos ≤ t.last
  content : t.nodes.flatten.take (S.length - t.base * t.cap) = S.drop (t.base * t.cap)

/-- The reader is at byte `o`, in a node that is not released. -/
structure At (t : Track) (s : Stream) (o : Nat) : Prop where
  same   : s.node = s.posNode
  inside : s.posOff < t.cap
  pos    : s.posNode * t.cap + s.posOff = o
  alive  : t.base ≤ s.posNode

theorem total_eq {t : Track} (h : t.nodes ≠ []) : total t = top t + t.cap := by
  unfold total top
  have : 0 < t.nodes.length := List.length_pos_iff.2 h
  have : t.base + t.nodes.length = (t.base + t.nodes.length - 1) + 1 := by omega
  conv => lhs; rw [this]
  rw [Nat.add_mul]; omega

theorem flatten_len {t : Track} {S : List UInt8} (h : Mem t S) : t.nodes.flatten.length = t.nodes.length * t.cap :=
  BufStream.flatten_length_of_size _ h.size

/-- The first byte held is not behind what was written. -/
theorem base_le {t : Track} {S : List UInt8} (h : Mem t S) : t.base * t.cap ≤ S.length := by
  by_cases hn : t.nodes = []
  · rw [(h.empty hn).1]; omega
  · have hp := h.place hn
    have : t.base * t.cap ≤ top t := by
      unfold top
      have : 0 < t.nodes.length := List.length_pos_iff.2 hn
      exact Nat.mul_le_mul_right _ (by omega)
    omega

theorem len_le_total {t : Track} {S : List UInt8} (h : Mem t S) : S.length ≤ total t := by
  by_cases hn : t.nodes = []
  · rw [(h.empty hn).2.1]; simp
  · have hp := h.place hn
    have := h.last
    have := total_eq hn
    omega

theorem at_sim {t : Track} {S : List UInt8} (h : Mem t S) {s : Stream} {o : Nat} (ha : At t s o) (ho : o < total t) :
    BufStream.Sim t.cap t.nodes (shift s t.base) ⟨t.nodes.flatten, o - t.base * t.cap⟩ := by
  obtain ⟨h1, h2, h3, h4⟩ := ha
  refine ⟨h.size, ?_, h2, ?_, rfl, ?_⟩
  · show s.posNode - t.base = s.node - t.base
    rw [h1]
  · show s.node - t.base < t.nodes.length
    rw [h1]
    unfold total at ho
    have : s.posNode * t.cap < (t.base + t.nodes.length) * t.cap := by omega
    have := Nat.lt_of_mul_lt_mul_right this
    omega
  · show o - t.base * t.cap = (s.node - t.base) * t.cap + s.posOff
    rw [h1, Nat.sub_mul]
    have := Nat.mul_le_mul_right t.cap h4
    omega

/-- The bytes between two positions that were written are in the nodes. -/
theorem content_slice {t : Track} {S : List UInt8} (h : Mem t S) {o n : Nat} (hb : t.base * t.cap ≤ o)
    (hn : o + n ≤ S.length) : (t.nodes.flatten.drop (o - t.base * t.cap)).take n = (S.drop o).take n := by
  have e : ((t.nodes.flatten.take (S.length - t.base * t.cap)).drop (o - t.base * t.cap)).take n
      = ((S.drop (t.base * t.cap)).drop (o - t.base * t.cap)).take n := by rw [h.content]
  rw [List.drop_drop, show t.base * t.cap + (o - t.base * t.cap) = o by omega] at e
  rw [← e, List.drop_take, List.take_take]
  congr 1
  omega

theorem unshift_at {t : Track} {s : Stream} {o : Nat} {q : List (List UInt8)}
    (h : BufStream.Sim t.cap q s ⟨q.flatten, o - t.base * t.cap⟩) (hb : t.base * t.cap ≤ o) : At t (unshift s t.base) o := by
  obtain ⟨_, h1, h2, _, _, h5⟩ := h
  refine ⟨?_, h2, ?_, ?_⟩
  · show s.node + t.base = s.posNode + t.base
    rw [h1]
  · show (s.posNode + t.base) * t.cap + s.posOff = o
    dsimp only at h5
    rw [h1, Nat.add_mul]
    omega
  · show t.base ≤ s.posNode + t.base
    omega

theorem at_base {t : Track} {s : Stream} {o : Nat} (ha : At t s o) : t.base * t.cap ≤ o := by
  have := Nat.mul_le_mul_right t.cap ha.alive
  have := ha.pos
  omega

theorem at_sound {t : Track} {S : List UInt8} (h : Mem t S) {s : Stream} {o n : Nat} (ha : At t s o)
    (hn : o + n ≤ S.length) : Sound t s n := by
  refine ⟨by rw [ha.same]; exact ha.alive, ha.alive, ?_⟩
  unfold Stream.off
  rw [ha.pos, h.written]
  exact hn

/-- Reading what was written gives the bytes of `S` and moves the reader. -/
theorem read_spec {t : Track} {S : List UInt8} (h : Mem t S) {s : Stream} {o n : Nat} (ha : At t s o)
    (hn : o + n ≤ S.length) (ht : o + n < total t) :
    ∃ s', read t s n = .ok (some ((S.drop o).take n), s') ∧ At t s' (o + n) := by
  have hb := at_base ha
  have hs := at_sim h ha (by omega)
  have hr := BufStream.step_refines h.cap hs (.read n)
  have hlen := flatten_len h
  have htot : t.base * t.cap + t.nodes.flatten.length = total t := by unfold total; rw [hlen, Nat.add_mul]
  simp only [BufStream.Flat.step] at hr
  rw [if_pos (by right; omega)] at hr
  dsimp only at hr
  obtain ⟨q', s', e, hsim⟩ := hr
  unfold BufStream.step at e
  dsimp only at e
  split at e
  · next l s1 he =>
    cases e
    refine ⟨unshift s' t.base, ?_, ?_⟩
    · unfold read
      rw [if_pos (at_sound h ha hn), he]
      dsimp only
      rw [content_slice h hb hn]
    · refine unshift_at (o := o + n) (q := t.nodes) ?_ (by omega)
      rw [show o + n - t.base * t.cap = o - t.base * t.cap + n by omega]
      exact hsim
  · cases e
  · cases e
  · cases e

/-- Skipping moves the reader. -/
theorem skip_spec {t : Track} {S : List UInt8} (h : Mem t S) {s : Stream} {o n : Nat} (ha : At t s o)
    (hn : o + n ≤ S.length) (ht : o + n < total t) : ∃ s', skip t s n = .ok (true, s') ∧ At t s' (o + n) := by
  have hb := at_base ha
  have hs := at_sim h ha (by omega)
  have hr := BufStream.step_refines h.cap hs (.skip n)
  have hlen := flatten_len h
  have htot : t.base * t.cap + t.nodes.flatten.length = total t := by unfold total; rw [hlen, Nat.add_mul]
  simp only [BufStream.Flat.step] at hr
  rw [if_pos (by omega)] at hr
  dsimp only at hr
  obtain ⟨q', s', e, hsim⟩ := hr
  unfold BufStream.step at e
  dsimp only at e
  split at e
  · next s1 he =>
    cases e
    refine ⟨unshift s' t.base, ?_, ?_⟩
    · unfold skip
      rw [if_pos (at_sound h ha hn), he]
    · refine unshift_at (o := o + n) (q := t.nodes) ?_ (by omega)
      rw [show o + n - t.base * t.cap = o - t.base * t.cap + n by omega]
      exact hsim
  · cases e
  · cases e
  · cases e

/-! ## Releasing nodes -/

theorem freeTo_spec (cap : Nat) (s : Stream) (hin : s.posOff < cap) : ∀ (l : List (List UInt8)) (b : Nat), b ≤ s.posNode →
    s.posNode < b + l.length → freeTo cap s b l = (s.posNode, l.drop (s.posNode - b))
  | [], b, h1, h2 => by simp only [List.length_nil] at h2; omega
  | [x], b, h1, h2 => by
    simp only [List.length_cons, List.length_nil] at h2
    have : s.posNode = b := by omega
    unfold freeTo
    rw [this]; simp
  | x :: y :: rest, b, h1, h2 => by
    unfold freeTo
    by_cases hb : s.posNode = b
    · rw [if_pos ⟨hb, hin⟩, hb]; simp
    · rw [if_neg (fun h => hb h.1), freeTo_spec cap s hin (y :: rest) (b + 1) (by omega)
        (by simp only [List.length_cons] at h2 ⊢; omega)]
      rw [show s.posNode - b = (s.posNode - (b + 1)) + 1 by omega, List.drop_succ_cons]

/-- Releasing up to a reader in the queue: the first node is the one of the reader. -/
theorem freeBufs_spec {t : Track} {S : List UInt8} (h : Mem t S) {s : Stream} {o : Nat} (ha : At t s o) (ho : o < total t) :
    let t' := freeBufs t s
    Mem t' S ∧ t'.base = s.posNode ∧ top t' = top t ∧ total t' = total t ∧ t'.nodes ≠ [] ∧
    t' = { t with base := t'.base, nodes := t'.nodes } := by
  have hlt : s.posNode < t.base + t.nodes.length := by
    have := ha.pos
    unfold total at ho
    exact Nat.lt_of_mul_lt_mul_right (show s.posNode * t.cap < _ by omega)
  have e : freeBufs t s = { t with base := s.posNode, nodes := t.nodes.drop (s.posNode - t.base) } := by
    unfold freeBufs
    rw [freeTo_spec t.cap s ha.inside t.nodes t.base ha.alive hlt]
  have hal := ha.alive
  have hne : t.nodes ≠ [] := by
    intro hc; rw [hc] at hlt; simp only [List.length_nil] at hlt; omega
  have hne' : t.nodes.drop (s.posNode - t.base) ≠ [] := by
    rw [← List.length_pos_iff, List.length_drop]; omega
  have hlen : s.posNode + (t.nodes.drop (s.posNode - t.base)).length = t.base + t.nodes.length := by
    rw [List.length_drop]; omega
  have htop : top (freeBufs t s) = top t := by rw [e]; unfold top; dsimp only; rw [hlen]
  have htotal : total (freeBufs t s) = total t := by rw [e]; unfold total; dsimp only; rw [hlen]
  refine ⟨?_, by rw [e], htop, htotal, by rw [e]; exact hne', by rw [e]⟩
  have hflat : (t.nodes.drop (s.posNode - t.base)).flatten = t.nodes.flatten.drop ((s.posNode - t.base) * t.cap) := by
    conv => rhs; rw [← List.take_append_drop (s.posNode - t.base) t.nodes, List.flatten_append]
    have hl : (t.nodes.take (s.posNode - t.base)).flatten.length = (s.posNode - t.base) * t.cap := by
      rw [BufStream.flatten_length_of_size _ (fun b hb => h.size b (List.mem_of_mem_take hb)),
        List.length_take, Nat.min_eq_left (by omega)]
    rw [← hl, List.drop_left]
  refine ⟨by rw [e]; exact h.cap, ?_, by rw [e]; exact h.written, ?_, ?_, by rw [e]; exact h.last,
    by rw [e]; exact h.pos, ?_⟩
  · rw [e]; exact fun b hb => h.size b (List.mem_of_mem_drop hb)
  · rw [e]; exact fun hc => absurd hc hne'
  · intro _
    rw [htop, e]
    exact h.place hne
  · rw [e]
    show (t.nodes.drop (s.posNode - t.base)).flatten.take (S.length - s.posNode * t.cap) = S.drop (s.posNode * t.cap)
    have hc : (t.nodes.flatten.take (S.length - t.base * t.cap)).drop ((s.posNode - t.base) * t.cap)
        = (S.drop (t.base * t.cap)).drop ((s.posNode - t.base) * t.cap) := by rw [h.content]
    have hm : t.base * t.cap + (s.posNode - t.base) * t.cap = s.posNode * t.cap := by
      rw [← Nat.add_mul]; congr 1; omega
    rw [List.drop_drop, hm, List.drop_take] at hc
    rw [hflat, ← hc]
    congr 1
    omega

/-- A reader in the queue stays where it is when nodes before it are released. -/
theorem at_free {t : Track} {s s' : Stream} {o : Nat} (ha : At t s o) {b : Nat} {l : List (List UInt8)} (hb : b ≤ s.posNode)
    (_ : s' = s) : At { t with base := b, nodes := l } s o :=
  ⟨ha.same, ha.inside, ha.pos, hb⟩

/-- A byte further on is in the same node or further on. -/
theorem node_mono {cap a x b y : Nat} (hy : y < cap) (h : a * cap + x ≤ b * cap + y) : a ≤ b := by
  by_cases hab : a ≤ b
  · exact hab
  · exfalso
    have : (b + 1) * cap ≤ a * cap := Nat.mul_le_mul_right _ (by omega)
    rw [Nat.add_mul] at this
    omega

/-! ## Writing -/

theorem getLast_split {t : Track} (h : t.nodes ≠ []) : ∃ pre n, t.nodes = pre ++ [n] ∧ t.nodes.getLast? = some n ∧
    t.nodes.dropLast = pre := by
  refine ⟨t.nodes.dropLast, t.nodes.getLast h, (List.dropLast_concat_getLast h).symm, List.getLast?_eq_some_getLast h, rfl⟩

/-- Copying into the active node. -/
theorem copyIn_spec {t : Track} {S : List UInt8} (h : Mem t S) (hn : t.nodes ≠ []) (b : List UInt8)
    (hb : t.last + b.length ≤ t.cap) :
    let t' := copyIn t b
    Mem t' (S ++ b) ∧ t'.base = t.base ∧ t'.nodes.length = t.nodes.length ∧ t'.last = t.last + b.length ∧
    t' = { t with nodes := t'.nodes, last := t'.last, written := t'.written } := by
  obtain ⟨pre, n, e, el, ed⟩ := getLast_split hn
  have hnl : n.length = t.cap := h.size n (by rw [e]; simp)
  have e' : copyIn t b = { t with nodes := pre ++ [BufStream.overwrite n t.last b], last := t.last + b.length,
                                  written := t.written + b.length } := by
    unfold copyIn; rw [el, ed]
  have hlen : (pre ++ [BufStream.overwrite n t.last b]).length = t.nodes.length := by rw [e]; simp
  have hov : (BufStream.overwrite n t.last b).length = t.cap := by
    rw [BufStream.overwrite_length _ _ _ (by omega), hnl]
  have hpl := h.place hn
  have hpre : pre.flatten.length = pre.length * t.cap :=
    BufStream.flatten_length_of_size _ (fun b hb => h.size b (by rw [e]; simp [hb]))
  have hbase := base_le h
  have htop : top t = (t.base + pre.length) * t.cap := by
    unfold top; rw [e, List.length_append, List.length_cons, List.length_nil]; rfl
  refine ⟨?_, by rw [e'], by rw [e']; exact hlen, by rw [e'], by rw [e']⟩
  refine ⟨by rw [e']; exact h.cap, ?_, ?_, ?_, ?_, by rw [e']; exact hb, ?_, ?_⟩
  · rw [e']
    intro x hx
    rcases List.mem_append.1 hx with hx | hx
    · exact h.size x (by rw [e]; simp [hx])
    · rw [List.mem_singleton.1 hx]; exact hov
  · rw [e', List.length_append]; show t.written + b.length = _; rw [h.written]
  · rw [e']; intro hc; exact absurd hc (by simp)
  · intro _
    rw [e', List.length_append]
    unfold top
    dsimp only
    rw [hlen]
    unfold top at hpl
    omega
  · rw [e']; have := h.pos; show t.pos ≤ t.last + b.length; omega
  · rw [e']
    show (pre ++ [BufStream.overwrite n t.last b]).flatten.take ((S ++ b).length - t.base * t.cap)
      = (S ++ b).drop (t.base * t.cap)
    have hc := h.content
    have hsl : S.length - t.base * t.cap = pre.flatten.length + t.last := by
      rw [hpre, ← hpl, htop, Nat.add_mul]; omega
    have e1 : t.nodes.flatten = pre.flatten ++ n := by rw [e]; simp
    rw [e1, hsl, List.take_append, List.take_of_length_le (Nat.le_add_right _ _), Nat.add_sub_cancel_left] at hc
    rw [List.drop_append_of_le_length hbase, ← hc, List.length_append,
      show S.length + b.length - t.base * t.cap = pre.flatten.length + (t.last + b.length) by omega]
    have e2 : (pre ++ [BufStream.overwrite n t.last b]).flatten = pre.flatten ++ BufStream.overwrite n t.last b := by simp
    rw [e2, List.take_append, List.take_of_length_le (Nat.le_add_right _ _), Nat.add_sub_cancel_left, List.append_assoc]
    congr 1
    unfold BufStream.overwrite
    have hl : (n.take t.last ++ b).length = t.last + b.length := by
      rw [List.length_append, List.length_take, Nat.min_eq_left (by omega)]
    rw [← hl, List.take_left]

/-- A new node behind a full one, or the first one. -/
theorem newNode_spec {t : Track} {S : List UInt8} (h : Mem t S) (hf : t.nodes ≠ [] → t.last = t.cap) :
    let t' := newNode t
    Mem t' S ∧ t'.nodes ≠ [] ∧ t'.base = t.base ∧ t'.last = 0 ∧ top t' = total t ∧ total t' = total t + t.cap ∧
    t' = { t with nodes := t'.nodes, pos := 0, last := 0 } := by
  have e : newNode t = { t with nodes := t.nodes ++ [List.replicate t.cap 0], pos := 0, last := 0 } := rfl
  have htop : top (newNode t) = total t := by
    rw [e]; unfold top total; dsimp only
    rw [List.length_append, List.length_cons, List.length_nil]; rfl
  have hbase := base_le h
  have hlen := len_le_total h
  have hS : S.length = total t := by
    by_cases hn : t.nodes = []
    · obtain ⟨h1, h2, _⟩ := h.empty hn
      rw [h2]; unfold total; rw [h1, hn]; simp
    · rw [total_eq hn, ← h.place hn, hf hn]
  have hflen := flatten_len h
  refine ⟨?_, by rw [e]; simp, rfl, rfl, htop, ?_, rfl⟩
  · refine ⟨h.cap, ?_, h.written, ?_, ?_, Nat.zero_le _, Nat.le_refl _, ?_⟩
    · rw [e]
      intro x hx
      rcases List.mem_append.1 hx with hx | hx
      · exact h.size x hx
      · rw [List.mem_singleton.1 hx]; simp
    · rw [e]; intro hc; exact absurd hc (by simp)
    · intro _; rw [htop, hS]; rfl
    · rw [e]
      show (t.nodes ++ [List.replicate t.cap 0]).flatten.take (S.length - t.base * t.cap) = S.drop (t.base * t.cap)
      have hl : S.length - t.base * t.cap = t.nodes.flatten.length := by
        rw [hflen, hS]; unfold total; rw [Nat.add_mul]; omega
      rw [List.flatten_append, hl, List.take_left, ← h.content, hl, List.take_length]
  · rw [e]; unfold total; dsimp only
    rw [List.length_append, List.length_cons, List.length_nil, ← Nat.add_assoc, Nat.add_mul (t.base + t.nodes.length)]
    omega

/-! ## Sending -/

/-- The buffers are the bytes `a .. b` of what was written, in order. -/
def Covers (cap : Nat) : List Chunk → Nat → Nat → Prop
  | [], a, b => a = b
  | .ref k lo hi :: cs, a, b => k * cap + lo = a ∧ lo < hi ∧ hi ≤ cap ∧ Covers cap cs (k * cap + hi) b
  | .own _ :: _, _, _ => False

theorem covers_le {cap : Nat} : ∀ {cs : List Chunk} {a b : Nat}, Covers cap cs a b → a ≤ b
  | [], _, _, h => Nat.le_of_eq h
  | .ref k lo hi :: cs, a, b, h => by
    obtain ⟨h1, h2, _, h4⟩ := h
    have := covers_le h4
    omega
  | .own _ :: _, _, _, h => h.elim

theorem covers_append {cap : Nat} : ∀ {cs ds : List Chunk} {a b c : Nat}, Covers cap cs a b → Covers cap ds b c →
    Covers cap (cs ++ ds) a c
  | [], _, _, _, _, h, h' => by rw [Covers] at h; subst h; exact h'
  | .ref k lo hi :: cs, _, _, _, _, h, h' => ⟨h.1, h.2.1, h.2.2.1, covers_append h.2.2.2 h'⟩
  | .own _ :: _, _, _, _, _, h, _ => h.elim

/-- The buffers queued on a new connection are everything from the reader to what was handed out. -/
theorem refs_covers (cap pos : Nat) (hp : pos ≤ cap) : ∀ (n k lo : Nat), 0 < n → lo < cap →
    k * cap + lo ≤ (k + n - 1) * cap + pos → Covers cap (refs cap pos n k lo) (k * cap + lo) ((k + n - 1) * cap + pos)
  | 1, k, lo, _, hlo, hle => by
    unfold refs
    rw [if_pos rfl]
    unfold refs
    simp only [Nat.add_sub_cancel] at hle ⊢
    by_cases h : pos ≤ lo
    · rw [if_pos h]
      show k * cap + lo = k * cap + pos
      omega
    · rw [if_neg h]
      exact ⟨rfl, by omega, hp, rfl⟩
  | n + 2, k, lo, _, hlo, hle => by
    unfold refs
    rw [if_neg (show ¬n + 1 = 0 by omega)]
    dsimp only
    rw [if_neg (show ¬cap ≤ lo by omega)]
    have hm : (k + 1) * cap = k * cap + cap := by rw [Nat.add_mul, Nat.one_mul]
    have he : k + (n + 2) - 1 = k + 1 + (n + 1) - 1 := by omega
    have hk : (k + 1) * cap + 0 ≤ (k + 1 + (n + 1) - 1) * cap + pos := by
      have : (k + 1) * cap ≤ (k + 1 + (n + 1) - 1) * cap := Nat.mul_le_mul_right _ (by omega)
      omega
    have ih := refs_covers cap pos hp (n + 1) (k + 1) 0 (by omega) (by omega) hk
    rw [he]
    refine ⟨rfl, hlo, Nat.le_refl _, ?_⟩
    rw [Nat.add_zero, hm] at ih
    exact ih

theorem chunk_ref {t : Track} {S : List UInt8} (h : Mem t S) {k lo hi : Nat} (hlo : lo < hi) (hhi : hi ≤ t.cap)
    (hb : t.base * t.cap ≤ k * t.cap + lo) (hs : k * t.cap + hi ≤ S.length) :
    chunkBytes t (.ref k lo hi) = .ok ((S.drop (k * t.cap + lo)).take (hi - lo)) := by
  have hbk : t.base ≤ k := node_mono (show lo < t.cap by omega) (show t.base * t.cap + 0 ≤ k * t.cap + lo by omega)
  have htot := len_le_total h
  have hk : k - t.base < t.nodes.length := by
    unfold total at htot
    have : k * t.cap < (t.base + t.nodes.length) * t.cap := by omega
    have := Nat.lt_of_mul_lt_mul_right this
    omega
  unfold chunkBytes
  dsimp only
  rw [if_neg (by omega), List.getElem?_eq_getElem hk]
  dsimp only
  congr 1
  have hsz : (t.nodes[k - t.base]).length = t.cap := h.size _ (List.getElem_mem _)
  rw [← content_slice h hb (show k * t.cap + lo + (hi - lo) ≤ S.length by omega)]
  have hq := BufStream.split_at t.nodes (k - t.base) hk
  have hpre : (t.nodes.take (k - t.base)).flatten.length = (k - t.base) * t.cap := by
    rw [BufStream.flatten_length_of_size _ (fun b hb => h.size b (List.mem_of_mem_take hb)), List.length_take,
      Nat.min_eq_left (by omega)]
  have hfl : t.nodes.flatten = (t.nodes.take (k - t.base)).flatten ++ (t.nodes[k - t.base] ++ (t.nodes.drop (k - t.base + 1)).flatten) := by
    conv => lhs; rw [hq]
    rw [List.flatten_append, List.flatten_cons]
  have ho : k * t.cap + lo - t.base * t.cap = (t.nodes.take (k - t.base)).flatten.length + lo := by
    rw [hpre, Nat.sub_mul]
    have := Nat.mul_le_mul_right t.cap hbk
    omega
  rw [ho, hfl, List.drop_append, List.drop_of_length_le (Nat.le_add_right _ _), List.nil_append, Nat.add_sub_cancel_left,
    List.drop_append_of_le_length (by omega), List.take_append_of_le_length (by rw [List.length_drop]; omega),
    List.drop_take]

theorem take_drop_split {α : Type} (l : List α) (a b c : Nat) (hab : a ≤ b) (hbc : b ≤ c) :
    (l.drop a).take (c - a) = (l.drop a).take (b - a) ++ (l.drop b).take (c - b) := by
  rw [show c - a = (b - a) + (c - b) by omega, List.take_add, List.drop_drop]
  congr 3
  omega

/-- What the socket takes from buffers of the queue. -/
theorem take_refs {t : Track} {S : List UInt8} (h : Mem t S) : ∀ (cs : List Chunk) (a b n : Nat), Covers t.cap cs a b →
    t.base * t.cap ≤ a → b ≤ S.length →
    ∃ rest, takeChunks t cs n = .ok (((S.drop a).take (b - a)).take n, rest) ∧ Covers t.cap rest (min (a + n) b) b
  | [], a, b, n, hc, hb, hs => by
    rw [Covers] at hc
    subst hc
    refine ⟨[], by simp [takeChunks], ?_⟩
    show min (a + n) a = a
    omega
  | .own _ :: _, _, _, _, hc, _, _ => hc.elim
  | .ref k lo hi :: cs, a, b, n, hc, hb, hs => by
    have hle := covers_le hc
    obtain ⟨h1, h2, h3, h4⟩ := hc
    have hle4 := covers_le h4
    unfold takeChunks
    by_cases hn : n = 0
    · rw [if_pos hn, hn]
      refine ⟨.ref k lo hi :: cs, by simp, ?_⟩
      rw [show min (a + 0) b = a by omega]
      exact ⟨h1, h2, h3, h4⟩
    · rw [if_neg hn, chunk_ref h h2 h3 (by omega) (by omega)]
      dsimp only
      have hl : ((S.drop (k * t.cap + lo)).take (hi - lo)).length = hi - lo := by
        rw [List.length_take, List.length_drop]; omega
      rw [hl]
      have hsp := take_drop_split S a (k * t.cap + hi) b (by omega) hle4
      rw [hsp, h1, show k * t.cap + hi - a = hi - lo by omega]
      rw [h1] at hl
      by_cases hf : hi - lo ≤ n
      · rw [if_pos hf]
        obtain ⟨rest, e, hr⟩ := take_refs h cs (k * t.cap + hi) b (n - (hi - lo)) h4 (by omega) hs
        rw [e]
        refine ⟨rest, ?_, ?_⟩
        · rw [List.take_append, hl, List.take_of_length_le (l := (S.drop a).take (hi - lo)) (by omega)]
        · rw [show min (a + n) b = min (k * t.cap + hi + (n - (hi - lo))) b by omega]
          exact hr
      · rw [if_neg hf]
        refine ⟨.ref k (lo + n) hi :: cs, ?_, ?_⟩
        · rw [List.take_append_of_le_length (by omega)]
          rfl
        · rw [show min (a + n) b = a + n by omega]
          exact ⟨by omega, by omega, h3, h4⟩

/-- What the socket takes from the buffers of the upstream, then of the queue. -/
theorem take_spec {t : Track} {S : List UInt8} (h : Mem t S) (rs : List Chunk) (a b : Nat) (hc : Covers t.cap rs a b)
    (hb : t.base * t.cap ≤ a) (hs : b ≤ S.length) : ∀ (os : List (List UInt8)) (n : Nat),
    ∃ (os' : List (List UInt8)) (rs' : List Chunk), takeChunks t (os.map .own ++ rs) n
        = .ok ((os.flatten ++ (S.drop a).take (b - a)).take n, os'.map .own ++ rs') ∧
      os'.flatten = os.flatten.drop n ∧ Covers t.cap rs' (min (a + (n - os.flatten.length)) b) b
  | [], n => by
    obtain ⟨rest, e, hr⟩ := take_refs h rs a b n hc hb hs
    refine ⟨[], rest, ?_, by simp, ?_⟩
    · simpa using e
    · simpa using hr
  | o :: os, n => by
    simp only [List.map_cons, List.cons_append]
    unfold takeChunks
    have hle := covers_le hc
    by_cases hn : n = 0
    · rw [if_pos hn, hn]
      refine ⟨o :: os, rs, by simp, by simp, ?_⟩
      rw [Nat.zero_sub, Nat.add_zero, Nat.min_eq_left hle]
      exact hc
    · rw [if_neg hn]
      dsimp only [chunkBytes]
      by_cases hf : o.length ≤ n
      · rw [if_pos hf]
        obtain ⟨os', rs', e, ho, hr⟩ := take_spec h rs a b hc hb hs os (n - o.length)
        rw [e]
        refine ⟨os', rs', ?_, ?_, ?_⟩
        · dsimp only
          rw [List.flatten_cons, List.append_assoc, List.take_append (l₁ := o), List.take_of_length_le (l := o) hf]
        · rw [ho, List.flatten_cons, List.drop_append, List.drop_of_length_le hf, List.nil_append]
        · rw [List.flatten_cons, List.length_append]
          rw [show n - (o.length + os.flatten.length) = n - o.length - os.flatten.length by omega]
          exact hr
      · rw [if_neg hf]
        refine ⟨o.drop n :: os, rs, ?_, ?_, ?_⟩
        · rw [List.flatten_cons, List.append_assoc, List.take_append_of_le_length (l₁ := o) (by omega)]
          rfl
        · rw [List.flatten_cons, List.flatten_cons, List.drop_append_of_le_length (by omega)]
        · rw [List.flatten_cons, List.length_append, show n - (o.length + os.flatten.length) = 0 by omega,
            Nat.add_zero, Nat.min_eq_left hle]
          exact hc

end Verif.KmpOut
