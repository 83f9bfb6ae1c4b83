import Verif.Fmp4Order

/-!
# The data of a fragment

What the second pass writes is the data of the frames in the order of the first.
-/

namespace Verif.Fmp4

theorem bytesAt_length (mem : Nat → UInt8) (a n : Nat) : (bytesAt mem a n).length = n := by
  unfold bytesAt; simp

theorem bytesAt_add (mem : Nat → UInt8) (a n m : Nat) : bytesAt mem a (n + m) = bytesAt mem a n ++ bytesAt mem (a + n) m := by
  unfold bytesAt
  rw [List.range_add, List.map_append, List.map_map]
  congr 1
  apply List.map_congr_left
  intro i _
  simp only [Function.comp]
  congr 1
  omega

/-- The data of frames in an order, when the next data of stream `i` is at `ps[i]`. -/
def dataOf (mem : Nat → UInt8) : List Nat → List (Nat × Frame) → Bytes
  | _, [] => []
  | ps, (i, f) :: o => bytesAt mem (ps[i]?.getD 0) f.size ++ dataOf mem (ps.set i (ps[i]?.getD 0 + f.size)) o

/-- What was written and what is in the write buffer. -/
def Wr.content (mem : Nat → UInt8) (w : Wr) : Bytes :=
  w.out.flatMap (fun x => bytesAt mem x.2.1 x.2.2) ++ (match w.buf with | none => [] | some b => bytesAt mem b.2.1 b.2.2)

theorem flush_content (mem : Nat → UInt8) (w : Wr) : w.flush.content mem = w.content mem := by
  unfold Wr.flush
  cases hb : w.buf with
  | none => rfl
  | some b => unfold Wr.content; rw [hb]; simp

theorem flush_buf (w : Wr) : w.flush.buf = none := by
  unfold Wr.flush
  cases hb : w.buf with
  | none => exact hb
  | some b => rfl

theorem start_content (mem : Nat → UInt8) (w : Wr) (c : Chunk) (h : w.buf = none) :
    (w.start c).content mem = w.content mem ++ bytesAt mem c.addr c.len := by
  unfold Wr.start Wr.content
  rw [h]
  split
  · rename_i h0; simp [h0, bytesAt]
  · simp

/-- Whatever the addresses are, a frame is written after what was written before. -/
theorem put_content (mem : Nat → UInt8) (reuse : Bool) (w : Wr) (c : Chunk) (hr : reuse = true → w.buf = none) :
    (w.put reuse false c).content mem = w.content mem ++ bytesAt mem c.addr c.len ∧
      (c.last = true → (w.put reuse false c).buf = none) ∧ (reuse = true → (w.put reuse false c).buf = none) := by
  unfold Wr.put
  have key : ∀ v : Wr, v.content mem = w.content mem ++ bytesAt mem c.addr c.len → (reuse = true → v.buf = none) →
      (if c.last = true then v.flush else v).content mem = w.content mem ++ bytesAt mem c.addr c.len ∧
      (c.last = true → (if c.last = true then v.flush else v).buf = none) ∧
      (reuse = true → (if c.last = true then v.flush else v).buf = none) := by
    intro v hv hr
    split
    · exact ⟨by rw [flush_content, hv], fun _ => flush_buf v, fun _ => flush_buf v⟩
    · rename_i hl; exact ⟨hv, fun h => absurd h hl, hr⟩
  apply key
  · by_cases hre : reuse = true
    · rw [if_pos hre]
      unfold Wr.content
      simp only
      rw [hr hre]
      simp
    · rw [if_neg hre]
      cases hb : w.buf with
      | none => exact start_content mem w c hb
      | some b =>
        obtain ⟨s, a, n⟩ := b
        simp only
        split
        · rename_i h
          unfold Wr.content
          rw [hb]
          simp only
          rw [bytesAt_add, h.1, List.append_assoc]
        · rw [start_content mem _ c (flush_buf w), flush_content]
  · intro hre; rw [if_pos hre]; exact hr hre

theorem readNext_none {sel : Option Nat} {ss : List Rd} (h : choose sel (ss.map (·.cur)) = none) : readNext sel ss = .ok none := by
  unfold readNext; rw [h]

theorem readNext_some {sel : Option Nat} {ss : List Rd} {i : Nat} {s : Rd} {f : Frame} {fs : List Frame}
    (h : choose sel (ss.map (·.cur)) = some i) (hs : ss[i]? = some s) (hl : s.cur.left = f :: fs) (ha : f.size ≤ s.avail) :
    readNext sel ss = .ok (some (⟨i, s.pos, f.size, fs.isEmpty⟩, i, ss.set i ⟨s.cur.tail, s.pos + f.size, s.avail - f.size⟩)) := by
  unfold readNext
  rw [h]
  simp only [hs, hl, tail_eq hl]
  rw [if_neg (by omega)]

theorem framesLeft_nil {cs : List Cur} (h : ∀ c ∈ cs, c.left = []) : framesLeft cs = 0 := by
  unfold framesLeft
  induction cs with
  | nil => rfl
  | cons c cs ih =>
    rw [List.map_cons, List.sum_cons, ih fun d hd => h d (List.mem_cons_of_mem _ hd), h c List.mem_cons_self]
    rfl

/-- The second pass writes the data of the frames in the order of the first. -/
theorem process_ok (mem : Nat → UInt8) (reuse : Bool) {n : Nat} {sel : Option Nat} {ss : List Rd} {w : Wr}
    (hn : framesLeft (ss.map (·.cur)) ≤ n) (ha : ∀ s ∈ ss, (s.cur.left.map (·.size)).sum ≤ s.avail)
    (hr : reuse = true → w.buf = none) :
    ∃ w', process reuse false n sel ss w = .ok w' ∧
      w'.content mem = w.content mem ++ dataOf mem (ss.map (·.pos)) (order n sel (ss.map (·.cur))) ∧
      (order n sel (ss.map (·.cur)) = [] → w' = w) ∧ (order n sel (ss.map (·.cur)) ≠ [] → w'.buf = none) := by
  induction n generalizing sel ss w with
  | zero => exact ⟨w, rfl, by simp [order, dataOf], fun _ => rfl, fun h => absurd rfl h⟩
  | succ n ih =>
    cases hch : choose sel (ss.map (·.cur)) with
    | none =>
      refine ⟨w, ?_, ?_, fun _ => rfl, ?_⟩
      · unfold process; rw [readNext_none hch]; rfl
      · rw [order_none hch]; simp [dataOf]
      · intro h; exact absurd (order_none hch) h
    | some i =>
      obtain ⟨c, f, fs, hc, hl⟩ := choose_some hch
      obtain ⟨s, hs1, rfl⟩ : ∃ s, ss[i]? = some s ∧ s.cur = c := by
        rw [List.getElem?_map] at hc
        cases hx : ss[i]? with
        | none => rw [hx] at hc; cases hc
        | some s => rw [hx] at hc; injection hc with hc; exact ⟨s, rfl, hc⟩
      have hav := ha s (List.mem_of_getElem? hs1)
      rw [hl, List.map_cons, List.sum_cons] at hav
      have hrn := readNext_some hch hs1 hl (by omega)
      have hfl := framesLeft_set hc hl
      have hmap : (ss.set i ⟨s.cur.tail, s.pos + f.size, s.avail - f.size⟩).map (·.cur) = (ss.map (·.cur)).set i s.cur.tail := by
        rw [List.map_set]
      have hmap2 : (ss.set i ⟨s.cur.tail, s.pos + f.size, s.avail - f.size⟩).map (·.pos) = (ss.map (·.pos)).set i (s.pos + f.size) := by
        rw [List.map_set]
      obtain ⟨p1, p2, p3⟩ := put_content mem reuse w ⟨i, s.pos, f.size, fs.isEmpty⟩ hr
      obtain ⟨w', e1, e2, e3, e4⟩ := ih (sel := some i) (ss := ss.set i ⟨s.cur.tail, s.pos + f.size, s.avail - f.size⟩)
        (w := w.put reuse false ⟨i, s.pos, f.size, fs.isEmpty⟩)
        (by rw [hmap]; omega)
        (by
          intro t ht
          rcases List.mem_or_eq_of_mem_set ht with h' | rfl
          · exact ha t h'
          · rw [tail_eq hl]; simp only; omega)
        p3
      rw [hmap] at e2 e3 e4
      rw [hmap2] at e2
      have hpos : (ss.map (·.pos))[i]? = some s.pos := by rw [List.getElem?_map, hs1]; rfl
      refine ⟨w', ?_, ?_, ?_, ?_⟩
      · unfold process; rw [hrn]; exact e1
      · rw [order_some hch hc hl, e2, p1]
        simp only [dataOf, hpos, Option.getD_some]
        rw [List.append_assoc]
      · intro h; rw [order_some hch hc hl] at h; cases h
      · intro _
        by_cases ho : order n (some i) ((ss.map (·.cur)).set i s.cur.tail) = []
        · rw [e3 ho]
          apply p2
          have := order_complete (n := n) (sel := some i) (cs := (ss.map (·.cur)).set i s.cur.tail) (by omega) i
          rw [ho] at this
          have hil : i < (ss.map (·.cur)).length := (List.getElem?_eq_some_iff.mp hc).1
          rw [List.getElem?_set_self hil, tail_eq hl] at this
          simp [ofStream] at this
          simp [← this]
        · exact e4 ho

/-- The data of consecutive frames of a stream. -/
def datas (mem : Nat → UInt8) : Nat → List Frame → List Bytes
  | _, [] => []
  | p, f :: fs => bytesAt mem p f.size :: datas mem (p + f.size) fs

theorem dataOf_length (mem : Nat → UInt8) (ps : List Nat) (o : List (Nat × Frame)) : (dataOf mem ps o).length = bytesOf o := by
  induction o generalizing ps with
  | nil => rfl
  | cons x o ih => obtain ⟨i, f⟩ := x; simp [dataOf, bytesOf_cons, ih, bytesAt_length]

/-- The data of every frame is at its place. -/
theorem data_places (mem : Nat → UInt8) {o : List (Nat × Frame)} {ps : List Nat} {pre post : Bytes} {i p : Nat} (hp : ps[i]? = some p) :
    (places i pre.length o).map (fun x => ((pre ++ dataOf mem ps o ++ post).drop x.1).take x.2) = datas mem p (ofStream i o) := by
  induction o generalizing ps pre p with
  | nil => rfl
  | cons x o ih =>
    obtain ⟨j, f⟩ := x
    have hil : i < ps.length := (List.getElem?_eq_some_iff.mp hp).1
    have hlen : (pre ++ bytesAt mem (ps[j]?.getD 0) f.size).length = pre.length + f.size := by simp [bytesAt_length]
    have happ : pre ++ dataOf mem ps ((j, f) :: o) ++ post
        = (pre ++ bytesAt mem (ps[j]?.getD 0) f.size) ++ dataOf mem (ps.set j (ps[j]?.getD 0 + f.size)) o ++ post := by
      simp [dataOf]
    by_cases hj : j = i
    · subst hj
      rw [places_cons_self, ofStream_cons_self, happ]
      have ih := ih (ps := ps.set j (ps[j]?.getD 0 + f.size)) (pre := pre ++ bytesAt mem (ps[j]?.getD 0) f.size)
        (p := p + f.size) (by rw [List.getElem?_set_self hil, hp]; rfl)
      rw [hlen] at ih
      simp only [List.map_cons, datas]
      rw [ih]
      congr 1
      rw [List.append_assoc, List.append_assoc, List.drop_left, List.take_append_of_le_length (by simp [bytesAt_length]), hp]
      rw [List.take_of_length_le (by simp [bytesAt_length])]
      rfl
    · rw [places_cons_ne hj, ofStream_cons_ne hj, happ]
      have ih := ih (ps := ps.set j (ps[j]?.getD 0 + f.size)) (pre := pre ++ bytesAt mem (ps[j]?.getD 0) f.size)
        (p := p) (by rw [List.getElem?_set_ne hj]; exact hp)
      rw [hlen] at ih
      exact ih

theorem places_bound {o : List (Nat × Frame)} {i off : Nat} : ∀ x ∈ places i off o, off ≤ x.1 ∧ x.1 + x.2 ≤ off + bytesOf o := by
  induction o generalizing off with
  | nil => intro x hx; cases hx
  | cons y o ih =>
    obtain ⟨j, f⟩ := y
    intro x hx
    rw [bytesOf_cons]
    simp only
    by_cases hj : j = i
    · subst hj
      rw [places_cons_self] at hx
      rcases List.mem_cons.mp hx with rfl | hx
      · exact ⟨Nat.le_refl _, by simp only; omega⟩
      · have := ih x hx; omega
    · rw [places_cons_ne hj] at hx
      have := ih x hx; omega

end Verif.Fmp4
