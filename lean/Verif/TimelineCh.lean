import Verif.TimelineList

/-!
# Timelines of a channel: all operations, and the invariant
-/

namespace Verif.Timeline

open Verif.SegmentList (SL Iter Seg Inv seq segs ahead setLast AddOk)

/-! ## Operations -/

inductive Op where
  | create (c : Conf) (m : MConf) (now : Int)
  | free (id : Nat)
  | update (id : Nat) (c : Conf) (m : MConf)
  | get (id : Nat) (now : Int)
  | add (now time : Int) (idx dur : Nat) (force : Bool)
  | updateLast (dur : Nat)
  | truncate (now : Int) (idx : Nat)
  | cleanup (now : Int)
  /-- The channel completed segments. -/
  | next (n : Nat)
  | setActive (b : Bool)
deriving Repr, DecidableEq

def step (ch : Ch) : Op → Res Ch
  | .create c m now => create ch c m now
  | .free id => .ok (free ch id)
  | .update id c m => update ch id c m
  | .get id now => get ch id now
  | .add now time idx dur force => do
    let (ch, _) ← addSeg ch now time idx dur force
    .ok ch
  | .updateLast dur => updateLast ch dur
  | .truncate now idx => truncate ch now idx
  | .cleanup now => cleanup ch now
  | .next n => .ok { ch with next := n }
  | .setActive b => .ok { ch with active := b }

/-- The segments that were ever added, with their durations. -/
def log (H : List Seg) : Op → List Seg
  | .add _ time idx dur _ => H ++ [⟨idx, time, dur⟩]
  | .updateLast dur => match H.getLast? with
    | none => H
    | some g => setLast H { g with dur }
  | _ => H

/-- What callers guarantee: indexes grow, and are not below the index of the next segment of the channel; times are in range,
and in order when `mono` is set. -/
def Guard (mono : Bool) (ch : Ch) (H : List Seg) : Op → Prop
  | .add _ time idx dur _ => AddOk mono H idx time dur ∧ ch.next ≤ idx ∧ idx < invalidIdx
  | .updateLast dur => dur < 2 ^ 32 ∧ ∀ g, H.getLast? = some g → g.time + (dur : Nat) ≤ SegmentList.B
  | .next n => ch.next ≤ n ∧ n < 2 ^ 32
  | _ => True

/-- The state, and the log of segments, after some operations on a new channel. An operation that fails changes nothing. -/
inductive Reach (mono : Bool) : Ch → List Seg → Prop
  | init (next scale : Nat) (h : next < 2 ^ 32) : Reach mono (init next scale) []
  | step {s s' : Ch} {H : List Seg} {op : Op} : Reach mono s H → Guard mono s H op → step s op = .ok s' → Reach mono s' (log H op)

/-! ## The invariant -/

structure ChInv (mono : Bool) (ch : Ch) (H : List Seg) : Prop where
  inv : Inv mono ch.segs.sl
  log : ∃ pre, H = pre ++ segs ch.segs.sl ∧ (∀ g ∈ pre, g.idx < ch.minIdx) ∧ (segs ch.segs.sl = [] → pre = [])
  top : hi ch.segs < 2 ^ 32
  nxt : ch.next < 2 ^ 32
  minle : ch.minIdx ≤ ch.next
  last : ∀ g, H.getLast? = some g → ch.lastIdx = g.idx
  pend : ch.pend = true → ∃ g, H.getLast? = some g ∧ g.dur = 0
  tls : ∀ t ∈ ch.tls, TlInv ch.segs t ∧ Bnd (hi ch.segs) (max (hi ch.segs) ch.next) t ∧ ∀ p ∈ t.periods, ch.minIdx ≤ p.key
  idlt : ch.tls.Pairwise (fun t u => t.id < u.id)
  idle : ∀ t ∈ ch.tls, t.id ≤ ch.lastId

theorem ChInv.lastEq {mono : Bool} {ch : Ch} {H : List Seg} (h : ChInv mono ch H) : H.getLast? = (segs ch.segs.sl).getLast? := by
  obtain ⟨pre, e, _, h3⟩ := h.log
  rcases SegmentList.snoc_cases (segs ch.segs.sl) with e1 | ⟨A, x, e1⟩
  · rw [e, h3 e1]; simp
  · rw [e, e1, ← List.append_assoc]; simp

/-! ## Lists of timelines -/

inductive All2 (R : Tl → Tl → Prop) : List Tl → List Tl → Prop
  | nil : All2 R [] []
  | cons {a b : Tl} {as bs : List Tl} : R a b → All2 R as bs → All2 R (a :: as) (b :: bs)

theorem All2.imp {R S : Tl → Tl → Prop} (H : ∀ a b, R a b → S a b) {l m : List Tl} (h : All2 R l m) : All2 S l m := by
  induction h with
  | nil => exact .nil
  | cons h _ ih => exact .cons (H _ _ h) ih

theorem All2.right {R : Tl → Tl → Prop} {l m : List Tl} (h : All2 R l m) : ∀ b ∈ m, ∃ a ∈ l, R a b := by
  induction h with
  | nil => intro b hb; exact absurd hb List.not_mem_nil
  | cons h _ ih =>
    intro b hb
    rcases List.mem_cons.1 hb with e | hb
    · exact ⟨_, List.mem_cons_self, by rw [e]; exact h⟩
    · obtain ⟨a, ha, hr⟩ := ih b hb
      exact ⟨a, List.mem_cons_of_mem _ ha, hr⟩

theorem All2.same {R : Tl → Tl → Prop} (H : ∀ a, R a a) : ∀ (l : List Tl), All2 R l l
  | [] => .nil
  | a :: l => .cons (H a) (All2.same H l)

theorem All2.ids {R : Tl → Tl → Prop} (H : ∀ a b, R a b → b.id = a.id) {l m : List Tl} (h : All2 R l m) : m.map (·.id) = l.map (·.id) := by
  induction h with
  | nil => rfl
  | cons h _ ih => rw [List.map_cons, List.map_cons, ih, H _ _ h]

theorem idlt_of {l m : List Tl} (e : m.map (·.id) = l.map (·.id)) (h : l.Pairwise (fun t u => t.id < u.id)) : m.Pairwise (fun t u => t.id < u.id) := by
  rw [← List.pairwise_map (f := fun t : Tl => t.id) (R := (· < ·))] at h ⊢
  rw [e]; exact h

theorem idle_of {l m : List Tl} {n : Nat} (e : m.map (·.id) = l.map (·.id)) (h : ∀ t ∈ l, t.id ≤ n) : ∀ t ∈ m, t.id ≤ n := by
  intro t ht
  have : t.id ∈ m.map (·.id) := List.mem_map.2 ⟨t, ht, rfl⟩
  rw [e] at this
  obtain ⟨u, hu, e⟩ := List.mem_map.1 this
  rw [← e]; exact h u hu

/-- What an operation did with a timeline that stays in the same list. -/
structure Same (q : Segs) (b N : Nat) (t t' : Tl) : Prop where
  inv : TlInv q t'
  bnd : Bnd (hi q) b t'
  ext : Ext N t t'
  sub : ∀ i ∈ ids t'.periods, i ∈ ids t.periods

theorem onTl_spec {q : Segs} {b N id : Nat} {f : Tl → Res Tl} {ts : List Tl} (h : ∀ t ∈ ts, TlInv q t ∧ Bnd (hi q) b t)
    (hf : ∀ t ∈ ts, ∃ t', f t = .ok t' ∧ Same q b N t t') : ∃ ts', onTl id f ts = .ok ts' ∧ All2 (Same q b N) ts ts' := by
  induction ts with
  | nil => exact ⟨[], rfl, .nil⟩
  | cons t ts ih =>
    rw [onTl]
    split
    · obtain ⟨t', h1, h2⟩ := hf t (by simp)
      rw [h1]
      refine ⟨t' :: ts, rfl, .cons h2 ?_⟩
      have : ∀ (l : List Tl), (∀ t ∈ l, TlInv q t ∧ Bnd (hi q) b t) → All2 (Same q b N) l l := by
        intro l
        induction l with
        | nil => intro _; exact .nil
        | cons a l ih =>
          intro hl
          have := hl a (by simp)
          exact .cons ⟨this.1, this.2, .refl _ _, fun _ h => h⟩ (ih (fun t ht => hl t (List.mem_cons_of_mem _ ht)))
      exact this ts (fun t ht => h t (List.mem_cons_of_mem _ ht))
    · obtain ⟨ts', h1, h2⟩ := ih (fun t ht => h t (List.mem_cons_of_mem _ ht)) (fun t ht => hf t (List.mem_cons_of_mem _ ht))
      rw [h1]
      have := h t (by simp)
      exact ⟨t :: ts', rfl, .cons ⟨this.1, this.2, .refl _ _, fun _ h => h⟩ h2⟩

/-- The segment is in the range of the timeline. -/
def Admits (t : Tl) (mid : Int) : Prop := t.conf.active = true ∧ t.conf.start ≤ mid ∧ mid < t.conf.fin

/-- What adding a segment does to a timeline. -/
structure Added (q : Segs) (N : Nat) (mid time : Int) (idx : Nat) (force : Bool) (t t' : Tl) : Prop where
  inv : TlInv q t'
  bnd : Bnd (idx + 1) (idx + 1) t'
  ext : Ext N t t'
  adm : Admits t mid → (∃ k, ids t'.periods = (ids t.periods ++ [idx]).drop k) ∧ ∃ k, playlist t' = (playlist t ++ [newRow t time idx force]).drop k
  not : ¬Admits t mid → (∃ k, ids t'.periods = (ids t.periods).drop k) ∧ ∃ k, playlist t' = (playlist t).drop k

theorem Bnd.mono {a b a' b' : Nat} {t : Tl} (h : Bnd a b t) (h1 : a ≤ a') (h2 : b ≤ b') : Bnd a' b' t :=
  ⟨Nat.le_trans h.per h1, h.seq, Nat.le_trans h.le h2⟩

theorem Cut.playlist {t t' : Tl} (h : Cut t t') {a b : Nat} (hb : Bnd a b t) : ∃ k, playlist t' = (playlist t).drop k := by
  obtain ⟨k, k1, k2⟩ := h.rows
  have hs := h.kept.sequence
  have h1 := hb.seq
  refine ⟨k, ?_⟩
  unfold Timeline.playlist
  rw [k2, ← numbered_drop, hs]
  congr 1
  omega

theorem Cut.added {q : Segs} {N idx : Nat} {mid time : Int} {force : Bool} {t t' : Tl} (hc : Cut t t') (hi' : TlInv q t') {a b : Nat}
    (hb : Bnd a b t) (h1 : a ≤ idx + 1) (h2 : b ≤ idx + 1) (hn : ¬Admits t mid) : Added q N mid time idx force t t' :=
  ⟨hi', (hc.ext hb N).2.mono h1 h2, (hc.ext hb N).1, fun h => absurd h hn, fun _ => ⟨hc.ids, hc.playlist hb⟩⟩

theorem addAll_spec {mono : Bool} {q : Segs} {sl : SL} {idx dur : Nat} {time : Int} (h : Inv mono q.sl)
    (ha : AddOk mono (segs q.sl) idx time dur) (hidx : idx < invalidIdx) (he : SegmentList.add q.sl true idx time dur = .ok sl)
    {b : Nat} (hbi : b ≤ idx) (hhi : hi q ≤ idx) (now mid : Int) (scale : Nat) (force : Bool) :
    ∀ (ts : List Tl) (min : Nat), (∀ t ∈ ts, TlInv q t ∧ Bnd (hi q) b t) →
    ∃ ts' min' ex, addAll { q with sl } now scale mid time idx dur force ts min = .ok (ts', min', ex) ∧
      All2 (Added { q with sl } (hi q) mid time idx force) ts ts' ∧ min' ≤ min ∧ (∀ t ∈ ts', ∀ p ∈ t.periods, min' ≤ p.key) ∧
      (min' = min ∨ ∃ t ∈ ts', ∃ p ∈ t.periods, min' = p.key)
  | [], min, _ => ⟨[], min, false, rfl, .nil, Nat.le_refl _, by simp, .inl rfl⟩
  | t :: ts, min, H => by
    obtain ⟨hi1, hs1⟩ := SegmentList.add_spec h ha he
    obtain ⟨ht, hb⟩ := H t (by simp)
    have hl : TlInv { q with sl } t := ht.lift (fun s _ => s.add h ha he)
    unfold invalidIdx at *
    have hper : t.man.firstIdx + t.man.perCount < 2 ^ 32 := by have := hb.per; omega
    have key : ∃ t1 min1 ex1, addOne { q with sl } now scale mid time idx dur force t min = .ok (t1, min1, ex1) ∧
        Added { q with sl } (hi q) mid time idx force t t1 ∧ MinOk t1 min min1 := by
      unfold addOne
      split
      · rename_i hc
        obtain ⟨t1, m1, r1, r2, r3, r4⟩ := inactiveRemove_spec (now := now) (scale := scale) (min := min) hi1 hl hper
        refine ⟨t1, m1, false, by rw [r1]; rfl, r3.added r2 hb (by omega) (by omega) (fun ⟨a1, a2, a3⟩ => ?_), r4⟩
        rcases hc with hc | hc
        · exact hc a1
        · omega
      · split
        · rename_i hc
          have hl2 : TlInv { q with sl } { t with conf := { t.conf with active := false } } :=
            ⟨hl.good, hl.sorted, hl.pids, hl.nid, hl.cs, hl.cd, hl.cp, hl.man⟩
          obtain ⟨t1, m1, r1, r2, r3, r4⟩ := inactiveRemove_spec (now := now) (scale := scale) (min := min) hi1 hl2 hper
          have hb2 : Bnd (hi q) b { t with conf := { t.conf with active := false } } := ⟨hb.per, hb.seq, hb.le⟩
          have := r3.added (N := hi q) (idx := idx) (mid := mid) (time := time) (force := force) r2 hb2 (by omega) (by omega) (fun ⟨a1, _⟩ => absurd a1 (by simp))
          refine ⟨t1, m1, false, by rw [r1]; rfl, ⟨this.inv, this.bnd, ?_, fun ⟨a1, a2, a3⟩ => by omega, fun _ => ?_⟩, r4⟩
          · exact ⟨this.ext.id, this.ext.list, this.ext.ids, this.ext.seq, this.ext.per⟩
          · exact this.not (fun ⟨a1, _⟩ => absurd a1 (by simp))
        · rename_i c1 c2
          obtain ⟨t1, m1, ex, r1, r2, r3, r4, r5, _, r6, r7⟩ := addTl_spec h ha hidx he ht hb hbi now force min
          refine ⟨t1, m1, ex, r1, ⟨r2, r5, r4, fun _ => ⟨r6, r7⟩, fun hn => absurd ⟨?_, ?_, ?_⟩ hn⟩, r3⟩
          · simp only [not_or, Decidable.not_not] at c1; exact c1.1
          · simp only [not_or] at c1; omega
          · omega
    obtain ⟨t1, m1, ex1, k1, k2, k3⟩ := key
    obtain ⟨ts', m2, ex2, j1, j2, j3, j4, j5⟩ := addAll_spec h ha hidx he hbi hhi now mid scale force ts m1
      (fun t ht => H t (List.mem_cons_of_mem _ ht))
    rw [addAll]
    refine ⟨t1 :: ts', m2, ex1 || ex2, ?_, .cons k2 j2, Nat.le_trans j3 k3.le, ?_, ?_⟩
    · rw [k1]
      simp only [Res.bind_ok]
      rw [j1]
      rfl
    · intro u hu p hp
      rcases List.mem_cons.1 hu with e | hu
      · rw [e] at hp; exact Nat.le_trans j3 (k3.low p hp)
      · exact j4 u hu p hp
    · rcases j5 with e | ⟨u, hu, p, hp, e⟩
      · rcases k3.tight with e2 | ⟨p, hp, e2⟩
        · exact .inl (e.trans e2)
        · exact .inr ⟨t1, by simp, p, hp, e.trans e2⟩
      · exact .inr ⟨u, List.mem_cons_of_mem _ hu, p, hp, e⟩

theorem cleanAll_spec {mono : Bool} {q : Segs} (h : Inv mono q.sl) {a b : Nat} (ha : a < 2 ^ 32) (now : Int) (scale N : Nat) :
    ∀ (ts : List Tl) (min : Nat), (∀ t ∈ ts, TlInv q t ∧ Bnd a b t) →
    ∃ ts' min', cleanAll q now scale ts min = .ok (ts', min') ∧ All2 (fun t t' => TlInv q t' ∧ Bnd a b t' ∧ Ext N t t' ∧ Cut t t') ts ts' ∧ min' ≤ min ∧
      (∀ t ∈ ts', ∀ p ∈ t.periods, min' ≤ p.key) ∧ (min' = min ∨ ∃ t ∈ ts', ∃ p ∈ t.periods, min' = p.key)
  | [], min, _ => ⟨[], min, rfl, .nil, Nat.le_refl _, by simp, .inl rfl⟩
  | t :: ts, min, H => by
    obtain ⟨ht, hb⟩ := H t (by simp)
    obtain ⟨t1, m1, r1, r2, r3, r4⟩ := inactiveRemove_spec (now := now) (scale := scale) (min := min) h ht (by have := hb.per; omega)
    obtain ⟨ts', m2, j1, j2, j3, j4, j5⟩ := cleanAll_spec h ha now scale N ts m1 (fun t ht => H t (List.mem_cons_of_mem _ ht))
    rw [cleanAll, r1]
    simp only [Res.bind_ok]
    rw [j1]
    refine ⟨t1 :: ts', m2, rfl, .cons ⟨r2, (r3.ext hb N).2, (r3.ext hb N).1, r3⟩ j2, Nat.le_trans j3 r4.le, ?_, ?_⟩
    · intro u hu p hp
      rcases List.mem_cons.1 hu with e | hu
      · rw [e] at hp; exact Nat.le_trans j3 (r4.low p hp)
      · exact j4 u hu p hp
    · rcases j5 with e | ⟨u, hu, p, hp, e⟩
      · rcases r4.tight with e2 | ⟨p, hp, e2⟩
        · exact .inl (e.trans e2)
        · exact .inr ⟨t1, by simp, p, hp, e.trans e2⟩
      · exact .inr ⟨u, List.mem_cons_of_mem _ hu, p, hp, e⟩

theorem truncAll_spec {mono : Bool} {q : Segs} (h : Inv mono q.sl) {a b : Nat} (ha : a < 2 ^ 32) (now : Int) (idx N : Nat) :
    ∀ (ts : List Tl), (∀ t ∈ ts, TlInv q t ∧ Bnd a b t) →
    ∃ ts', truncAll q now idx ts = .ok ts' ∧
      All2 (fun t t' => TlInv q t' ∧ Bnd a b t' ∧ Ext N t t' ∧ Cut t t' ∧ (t.conf.noTrunc = false → ∀ p ∈ t'.periods, idx < p.key)) ts ts'
  | [], _ => ⟨[], rfl, .nil⟩
  | t :: ts, H => by
    obtain ⟨ht, hb⟩ := H t (by simp)
    obtain ⟨t1, r1, r2, r3, r4⟩ := truncTl_spec (now := now) (idx := idx) h ht (by have := hb.per; omega)
    obtain ⟨ts', j1, j2⟩ := truncAll_spec h ha now idx N ts (fun t ht => H t (List.mem_cons_of_mem _ ht))
    rw [truncAll, r1]
    simp only [Res.bind_ok]
    rw [j1]
    exact ⟨t1 :: ts', rfl, .cons ⟨r2, (r3.ext hb N).2, (r3.ext hb N).1, r3, r4⟩ j2⟩

theorem updAll_spec {mono : Bool} {q : Segs} {sl : SL} {dur : Nat} (h : Inv mono q.sl) (hd : dur < 2 ^ 32) {H : List Seg} {g : Seg}
    (hg : segs q.sl = H ++ [g]) (hB : g.time + (dur : Nat) ≤ SegmentList.B) (he : SegmentList.updateLast q.sl dur = .ok sl) {a b : Nat} (N : Nat) :
    ∀ (ts : List Tl), (∀ t ∈ ts, TlInv q t ∧ Bnd a b t) →
    ∃ ts', updAll { q with sl } g.idx dur ts = .ok ts' ∧
      All2 (fun t t' => TlInv { q with sl } t' ∧ Bnd a b t' ∧ Ext N t t' ∧ Redur dur t t') ts ts'
  | [], _ => ⟨[], rfl, .nil⟩
  | t :: ts, hts => by
    obtain ⟨ht, hb⟩ := hts t (by simp)
    obtain ⟨t1, r1, r2, r3⟩ := updTl_spec h hd hg hB he ht
    obtain ⟨ts', j1, j2⟩ := updAll_spec h hd hg hB he N ts (fun t ht => hts t (List.mem_cons_of_mem _ ht))
    rw [updAll, r1]
    simp only [Res.bind_ok]
    rw [j1]
    exact ⟨t1 :: ts', rfl, .cons ⟨r2, (r3.ext hb N).2, (r3.ext hb N).1, r3⟩ j2⟩

/-! ## Segments that are given back -/

theorem TlInv.free {mono : Bool} {q : Segs} (h : Inv mono q.sl) {min : Nat} {t : Tl} (ht : TlInv q t) (hm : ∀ p ∈ t.periods, min ≤ p.key) :
    TlInv (q.free min) t := by
  have L : ∀ {p : Per} {ds : List Nat}, PerOk q p ds → min ≤ p.key → PerOk (q.free min) p ds :=
    fun hp hk => ⟨hp.span.free h hp.ne hk, hp.count, hp.dur, hp.ne⟩
  refine ⟨fun p hp => ?_, ht.sorted, ht.pids, ht.nid, ht.cs, ht.cd, ht.cp, ?_⟩
  · obtain ⟨ds, hd⟩ := ht.good p hp
    exact ⟨ds, L hd (hm p hp)⟩
  · cases ht.man with
    | empty e1 e2 e3 => exact .empty e1 e2 e3
    | some A p R ds hp hf lo hi nx cs cp cd =>
      exact .some A p R ds hp (L hf (Nat.le_trans (hm p (by rw [hp]; simp)) lo)) lo hi nx cs cp cd

theorem hi_free {mono : Bool} {q : Segs} (h : Inv mono q.sl) (min : Nat) : hi (q.free min) = hi q := by
  obtain ⟨_, pre, h1, _, h3⟩ := SegmentList.free_spec h min
  unfold hi
  have : (segs (q.free min).sl).getLast? = (segs q.sl).getLast? := by
    rw [h1]
    rcases SegmentList.snoc_cases (segs (SegmentList.freeNodes q.sl min)) with e | ⟨A, x, e⟩
    · have : segs q.sl = [] := Classical.byContradiction fun hn => h3 hn e
      rw [this] at h1
      have h1 := (List.append_eq_nil_iff.1 h1.symm).1
      show (segs (SegmentList.freeNodes q.sl min)).getLast? = _
      rw [h1]; simp
    · show (segs (SegmentList.freeNodes q.sl min)).getLast? = _
      rw [e, ← List.append_assoc]; simp
  rw [this]

/-- The indexes of a timeline are at or after the first one of each period. -/
theorem mem_ids {ps : List Per} {i : Nat} : i ∈ ids ps ↔ ∃ p ∈ ps, p.key ≤ i ∧ i < p.key + p.count := by
  unfold ids
  simp only [List.mem_flatMap, List.mem_range'_1]

theorem freeOld_inv {mono : Bool} {ch : Ch} {H : List Seg} {min : Nat} (h : ChInv mono ch H) (hmin : ch.minIdx ≤ min)
    (hn : min ≤ ch.next) (hk : ∀ t ∈ ch.tls, ∀ p ∈ t.periods, min ≤ p.key) : ChInv mono (freeOld ch min) H := by
  have hinv : Inv mono ch.segs.sl := h.inv
  obtain ⟨f1, pre, f2, f3, f4⟩ := SegmentList.free_spec hinv min
  refine ⟨f1, ?_, ?_, h.nxt, hn, h.last, h.pend, ?_, h.idlt, h.idle⟩
  · obtain ⟨P, p1, p2, p3⟩ := h.log
    refine ⟨P ++ pre, by rw [p1, f2, List.append_assoc]; rfl, ?_, ?_⟩
    · intro g hg
      rcases List.mem_append.1 hg with hg | hg
      · exact Nat.lt_of_lt_of_le (p2 g hg) hmin
      · exact f3 g hg
    · intro e
      have : segs ch.segs.sl = [] := Classical.byContradiction fun hn => f4 hn e
      rw [this] at f2
      rw [p3 this, (List.append_eq_nil_iff.1 f2.symm).1]; rfl
  · exact (hi_free hinv min).symm ▸ h.top
  · intro t ht
    obtain ⟨t1, t2, _⟩ := h.tls t ht
    have e := hi_free hinv min
    refine ⟨t1.free hinv (hk t ht), ?_, hk t ht⟩
    show Bnd (hi (ch.segs.free min)) (max (hi (ch.segs.free min)) ch.next) t
    rw [e]; exact t2

/-! ## All operations -/

/-- How the timelines of a channel come from the ones of an earlier state. -/
structure Link (s s' : Ch) : Prop where
  hi : hi s.segs ≤ hi s'.segs
  last : s.lastId ≤ s'.lastId
  tls : ∀ t' ∈ s'.tls, (∃ t ∈ s.tls, Ext (Timeline.hi s.segs) t t') ∨
    s.lastId < t'.id ∧ ∀ i ∈ ids t'.periods, Timeline.hi s.segs ≤ i

theorem Link.refl (s : Ch) : Link s s := ⟨Nat.le_refl _, Nat.le_refl _, fun t ht => .inl ⟨t, ht, .refl _ _⟩⟩

theorem Link.trans {a b c : Ch} (h : Link a b) (k : Link b c) : Link a c := by
  refine ⟨Nat.le_trans h.hi k.hi, Nat.le_trans h.last k.last, fun t ht => ?_⟩
  rcases k.tls t ht with ⟨u, hu, e⟩ | hn
  · rcases h.tls u hu with ⟨v, hv, e2⟩ | hn
    · exact .inl ⟨v, hv, e2.trans e h.hi⟩
    · refine .inr ⟨by rw [e.id]; exact hn.1, fun i hi => ?_⟩
      obtain ⟨k, new, e1, e2⟩ := e.ids
      rw [e1] at hi
      rcases List.mem_append.1 hi with hi | hi
      · exact hn.2 i (List.mem_of_mem_drop hi)
      · exact Nat.le_trans h.hi (e2 i hi)
  · exact .inr ⟨Nat.lt_of_le_of_lt h.last hn.1, fun i hi => Nat.le_trans h.hi (hn.2 i hi)⟩

theorem init_inv (mono : Bool) (next scale : Nat) (h : next < 2 ^ 32) : ChInv mono (init next scale) [] :=
  ⟨SegmentList.inv_init mono, ⟨[], rfl, by simp, by simp⟩, by show hi ⟨SegmentList.init, 0⟩ < _; decide, h, Nat.zero_le _, by simp, fun e => absurd e (by simp [init]), by simp [init], by simp [init], by simp [init]⟩

theorem Ext.conf (N : Nat) (t : Tl) (c : Conf) (m : MConf) : Ext N t { t with conf := c, man := { t.man with conf := m } } :=
  ⟨rfl, ⟨0, [], by rw [List.append_nil, List.drop_zero]; rfl, by simp⟩, ⟨0, [], by simp, by simp⟩, Nat.le_refl _, Nat.le_refl _⟩

theorem ManInv.conf {q : Segs} {ps : List Per} {m : Man} (h : ManInv q ps m) (c : MConf) : ManInv q ps { m with conf := c } := by
  cases h with
  | empty e1 e2 e3 => exact .empty e1 e2 e3
  | some A p R ds hp hf lo hi nx cs cp cd => exact .some A p R ds hp hf lo hi nx cs cp cd

/-- New timelines in place of the old ones. -/
theorem ChInv.tlsOf {mono : Bool} {ch : Ch} {H : List Seg} (h : ChInv mono ch H) {ts : List Tl}
    (ha : All2 (fun t t' => TlInv ch.segs t' ∧ Bnd (hi ch.segs) (max (hi ch.segs) ch.next) t' ∧ Ext (hi ch.segs) t t' ∧
      ∀ p ∈ t'.periods, ch.minIdx ≤ p.key) ch.tls ts) :
    ChInv mono { ch with tls := ts } H ∧ Link ch { ch with tls := ts } := by
  have e := ha.ids (fun a b h => h.2.2.1.id)
  refine ⟨⟨h.inv, h.log, h.top, h.nxt, h.minle, h.last, h.pend, ?_, idlt_of e h.idlt, idle_of e h.idle⟩, ⟨Nat.le_refl _, Nat.le_refl _, ?_⟩⟩
  · intro t ht
    obtain ⟨u, hu, r1, r2, r3, r4⟩ := ha.right t ht
    exact ⟨r1, r2, r4⟩
  · intro t ht
    obtain ⟨u, hu, r1, r2, r3, r4⟩ := ha.right t ht
    exact .inl ⟨u, hu, r3⟩

/-- The first indexes of periods stay above a limit. -/
theorem keys_of_ids {q : Segs} {t t' : Tl} {min : Nat} (ht' : TlInv q t') (hm : ∀ p ∈ t.periods, min ≤ p.key)
    (he : ∀ i ∈ ids t'.periods, i ∈ ids t.periods ∨ min ≤ i) : ∀ p ∈ t'.periods, min ≤ p.key := by
  intro p hp
  have hpos := (ht'.good p hp).pos
  rcases he p.key (mem_ids.2 ⟨p, hp, Nat.le_refl _, by omega⟩) with hi | hi
  · obtain ⟨r, hr, h1, _⟩ := mem_ids.1 hi
    exact Nat.le_trans (hm r hr) h1
  · exact hi

theorem drop_mem {α : Type} {l : List α} {k : Nat} {x : α} (h : x ∈ l.drop k) : x ∈ l := List.mem_of_mem_drop h

/-- Adding to a list for which the invariant holds. -/
theorem add_ok {mono : Bool} {s : SL} {idx dur : Nat} {time : Int} (h : Inv mono s) (ha : AddOk mono (segs s) idx time dur) :
    ∃ s', SegmentList.add s true idx time dur = .ok s' := by
  obtain ⟨_, _, _, a4, a5⟩ := ha
  have ei : SegmentList.i64 (time + (dur : Nat)) = .ok (time + (dur : Nat)) :=
    SegmentList.i64_ok (by unfold SegmentList.B at *; omega) (by unfold SegmentList.B at *; omega)
  have hnode : ∀ p, ∃ s', SegmentList.addNode s true idx time dur p = .ok s' := fun p => ⟨_, by unfold SegmentList.addNode; rw [if_pos rfl, ei]; rfl⟩
  unfold SegmentList.add
  cases hn : s.nodes.getLast? with
  | none => exact hnode 0
  | some n =>
    obtain ⟨l, el⟩ := SegmentList.getLast_concat hn
    have ho := h.ok n (by rw [el]; simp)
    dsimp only
    split
    · cases he : n.elts.getLast? with
      | none => exact absurd (List.getLast?_eq_none_iff.1 he) ho.ne
      | some e =>
        dsimp only
        split
        · rw [ei]; exact ⟨_, rfl⟩
        · split
          · rw [ei]; exact ⟨_, rfl⟩
          · exact hnode _
    · exact hnode _

/-- Giving the last segment its duration works, or fails. -/
theorem update_ok {mono : Bool} {s : SL} (h : Inv mono s) {dur : Nat} (hB : ∀ g, (segs s).getLast? = some g → g.time + (dur : Nat) ≤ SegmentList.B) :
    (∃ s', SegmentList.updateLast s dur = .ok s' ∧ segs s ≠ []) ∨ SegmentList.updateLast s dur = .err := by
  unfold SegmentList.updateLast
  cases hn : s.nodes.getLast? with
  | none => exact .inr rfl
  | some n =>
    obtain ⟨l, el⟩ := SegmentList.getLast_concat hn
    have ho := h.ok n (by rw [el]; simp)
    have hlast := h.last n hn
    obtain ⟨g, g1, _, g3⟩ := SegmentList.node_last ho
    have hgl : (segs s).getLast? = some g := by
      unfold segs
      rw [el, List.flatMap_append, List.flatMap_singleton, List.getLast?_append, g1]; rfl
    dsimp only
    cases he : n.elts.getLast? with
    | none => exact absurd (List.getLast?_eq_none_iff.1 he) ho.ne
    | some e =>
      dsimp only
      split
      · exact .inr rfl
      · split
        · exact .inr rfl
        · rename_i c1 c2
          have hlo := ho.lo
          have hb := hB g hgl
          have hg0 : g.dur = 0 := by
            obtain ⟨es, ee⟩ := SegmentList.getLast_concat he
            simp only [ne_eq, Decidable.not_not] at c1 c2
            have : SegmentList.durs n.elts = SegmentList.durs es ++ [0] := by
              rw [ee, SegmentList.durs_append, SegmentList.durs_one, c1, c2]; rfl
            unfold SegmentList.Node.segs at g1
            rw [this, SegmentList.seq_append] at g1
            simp [seq] at g1
            rw [← g1]
          have hge : n.fin ≥ n.time := by unfold SegmentList.Node.fin; omega
          have ei : SegmentList.i64 (s.lastTime + (dur : Nat)) = .ok (s.lastTime + (dur : Nat)) :=
            SegmentList.i64_ok (by unfold SegmentList.B at *; omega) (by unfold SegmentList.B at *; omega)
          rw [ei]
          simp only [Res.bind_ok]
          have hne : segs s ≠ [] := fun e => by rw [e] at hgl; exact nomatch hgl
          refine .inl ?_
          cases n.elts.dropLast.getLast? with
          | some p =>
            dsimp only
            split
            · exact ⟨_, rfl, hne⟩
            · exact ⟨_, rfl, hne⟩
          | none =>
            dsimp only
            cases hm : s.nodes.dropLast.getLast? with
            | none => exact ⟨_, rfl, hne⟩
            | some m =>
              have hmm : m ∈ s.nodes := List.dropLast_subset _ (List.mem_of_getLast? hm)
              cases hp : m.elts.getLast? with
              | none => exact absurd (List.getLast?_eq_none_iff.1 hp) (h.ok m hmm).ne
              | some p =>
                simp only [hp]
                split
                · exact ⟨_, rfl, hne⟩
                · exact ⟨_, rfl, hne⟩

/-- What the operations keep. -/
def Keeps (mono : Bool) (s s' : Ch) (H : List Seg) : Prop := ChInv mono s' H ∧ Link s s'

theorem validate_ub (c : Conf) (m : MConf) : validate c m ≠ .ub := by
  unfold validate
  dsimp only
  repeat' split
  all_goals exact fun e => nomatch e

theorem create_spec {mono : Bool} {s : Ch} {H : List Seg} (h : ChInv mono s H) (c : Conf) (m : MConf) (now : Int) :
    (∃ s', create s c m now = .ok s' ∧ Keeps mono s s' H) ∨ create s c m now = .err := by
  unfold create
  cases hv : validate c m with
  | err => exact .inr rfl
  | ub => exact absurd hv (validate_ub c m)
  | ok cm =>
    obtain ⟨c', m'⟩ := cm
    refine .inl ⟨_, rfl, ⟨h.inv, h.log, h.top, h.nxt, h.minle, h.last, h.pend, ?_, ?_, ?_⟩, Nat.le_refl _, Nat.le_succ _, ?_⟩
    · intro t ht
      rcases List.mem_append.1 ht with ht | ht
      · exact h.tls t ht
      · rw [List.mem_singleton.1 ht]
        exact ⟨⟨by simp, .nil, .nil, by simp, rfl, rfl, rfl, .empty rfl rfl rfl⟩, ⟨Nat.zero_le _, Nat.zero_le _, Nat.le_max_right _ _⟩, by simp⟩
    · refine List.pairwise_append.2 ⟨h.idlt, List.pairwise_singleton _ _, fun t ht u hu => ?_⟩
      rw [List.mem_singleton.1 hu]
      exact Nat.lt_succ_of_le (h.idle t ht)
    · intro t ht
      rcases List.mem_append.1 ht with ht | ht
      · exact Nat.le_succ_of_le (h.idle t ht)
      · rw [List.mem_singleton.1 ht]; exact Nat.le_refl _
    · intro t ht
      rcases List.mem_append.1 ht with ht | ht
      · exact .inl ⟨t, ht, .refl _ _⟩
      · rw [List.mem_singleton.1 ht]; exact .inr ⟨Nat.lt_succ_self _, fun i hi => absurd hi List.not_mem_nil⟩

theorem free_keeps {mono : Bool} {s : Ch} {H : List Seg} (h : ChInv mono s H) (id : Nat) : Keeps mono s (free s id) H := by
  refine ⟨⟨h.inv, h.log, h.top, h.nxt, h.minle, h.last, h.pend, ?_, h.idlt.filter _, ?_⟩, Nat.le_refl _, Nat.le_refl _, ?_⟩
  · intro t ht; exact h.tls t (List.mem_filter.1 ht).1
  · intro t ht; exact h.idle t (List.mem_filter.1 ht).1
  · intro t ht; exact .inl ⟨t, (List.mem_filter.1 ht).1, .refl _ _⟩

theorem ChInv.tl {mono : Bool} {s : Ch} {H : List Seg} (h : ChInv mono s H) :
    ∀ t ∈ s.tls, TlInv s.segs t ∧ Bnd (hi s.segs) (max (hi s.segs) s.next) t := fun t ht => ⟨(h.tls t ht).1, (h.tls t ht).2.1⟩

theorem All2.with_left {R : Tl → Tl → Prop} {P : Tl → Prop} {l m : List Tl} (h : All2 R l m) (hp : ∀ t ∈ l, P t) :
    All2 (fun a b => P a ∧ R a b) l m := by
  induction h with
  | nil => exact .nil
  | cons h _ ih => exact .cons ⟨hp _ List.mem_cons_self, h⟩ (ih (fun t ht => hp t (List.mem_cons_of_mem _ ht)))

theorem ChInv.onTl {mono : Bool} {s : Ch} {H : List Seg} (h : ChInv mono s H) (id : Nat) {f : Tl → Res Tl}
    (hf : ∀ t ∈ s.tls, ∃ t', f t = .ok t' ∧ Same s.segs (max (hi s.segs) s.next) (hi s.segs) t t') :
    ∃ ts, Timeline.onTl id f s.tls = .ok ts ∧ Keeps mono s { s with tls := ts } H := by
  obtain ⟨ts, k1, k2⟩ := onTl_spec (id := id) h.tl hf
  refine ⟨ts, k1, h.tlsOf ((k2.with_left (fun t ht => h.tls t ht)).imp ?_)⟩
  intro a b ⟨ha, hb⟩
  exact ⟨hb.inv, hb.bnd, hb.ext, keys_of_ids hb.inv ha.2.2 (fun i hi => .inl (hb.sub i hi))⟩

theorem update_spec {mono : Bool} {s : Ch} {H : List Seg} (h : ChInv mono s H) (id : Nat) (c : Conf) (m : MConf) :
    (∃ s', update s id c m = .ok s' ∧ Keeps mono s s' H) ∨ update s id c m = .err := by
  unfold update
  cases hv : validate c m with
  | err => exact .inr rfl
  | ub => exact absurd hv (validate_ub c m)
  | ok cm =>
    obtain ⟨c', m'⟩ := cm
    simp only [Res.bind_ok]
    obtain ⟨ts, k1, k2⟩ := h.onTl id (f := fun t => .ok { t with conf := { c' with active := if c'.fin ≤ s.lastMid then false else c'.active }, man := { t.man with conf := m' } }) (fun t ht => by
      obtain ⟨h1, h2⟩ := h.tl t ht
      exact ⟨_, rfl, ⟨h1.good, h1.sorted, h1.pids, h1.nid, h1.cs, h1.cd, h1.cp, h1.man.conf m'⟩, ⟨h2.per, h2.seq, h2.le⟩, .conf _ _ _ _, fun _ h => h⟩)
    rw [k1]
    exact .inl ⟨_, rfl, k2⟩

theorem Cut.sub {t t' : Tl} (h : Cut t t') : ∀ i ∈ Timeline.ids t'.periods, i ∈ Timeline.ids t.periods := by
  obtain ⟨k, e⟩ := h.ids
  intro i hi
  rw [e] at hi
  exact List.mem_of_mem_drop hi

theorem get_spec {mono : Bool} {s : Ch} {H : List Seg} (h : ChInv mono s H) (id : Nat) (now : Int) :
    ∃ s', get s id now = .ok s' ∧ Keeps mono s s' H := by
  unfold get
  obtain ⟨ts, k1, k2⟩ := h.onTl id (f := fun t =>
    if ¬t.conf.active ∨ ¬s.active then do
      let (t, _) ← inactiveRemove s.segs now s.scale t 0
      .ok t
    else .ok t) (fun t ht => by
      obtain ⟨h1, h2⟩ := h.tl t ht
      have htop := h.top
      split
      · obtain ⟨t1, m1, r1, r2, r3, r4⟩ := inactiveRemove_spec (now := now) (scale := s.scale) (min := 0) h.inv h1 (by have := h2.per; omega)
        rw [r1]
        exact ⟨t1, rfl, r2, (r3.ext h2 0).2, (r3.ext h2 _).1, r3.sub⟩
      · exact ⟨t, rfl, h1, h2, .refl _ _, fun _ h => h⟩)
  rw [k1]
  exact ⟨_, rfl, k2⟩

theorem truncate_spec {mono : Bool} {s : Ch} {H : List Seg} (h : ChInv mono s H) (now : Int) (idx : Nat) :
    ∃ s', truncate s now idx = .ok s' ∧ Keeps mono s s' H := by
  unfold truncate
  obtain ⟨ts, k1, k2⟩ := truncAll_spec h.inv h.top now idx (hi s.segs) s.tls h.tl
  rw [k1]
  have := h.tlsOf ((k2.with_left (fun t ht => h.tls t ht)).imp (fun a b ⟨ha, h1, h2, h3, h4, _⟩ =>
    ⟨h1, h2, h3, keys_of_ids h1 ha.2.2 (fun i hi => .inl (h4.sub i hi))⟩))
  exact ⟨_, rfl, ⟨this.1.inv, this.1.log, this.1.top, this.1.nxt, this.1.minle, this.1.last, this.1.pend, this.1.tls, this.1.idlt, this.1.idle⟩,
    this.2.hi, this.2.last, this.2.tls⟩

theorem min_mono {min0 min next : Nat} {ts : List Tl} (hn : min0 ≤ next) (hk : ∀ t ∈ ts, ∀ p ∈ t.periods, min0 ≤ p.key)
    (ht : min = next ∨ ∃ t ∈ ts, ∃ p ∈ t.periods, min = p.key) : min0 ≤ min := by
  rcases ht with e | ⟨t, h1, p, h2, e⟩
  · rw [e]; exact hn
  · rw [e]; exact hk t h1 p h2

theorem cleanup_spec {mono : Bool} {s : Ch} {H : List Seg} (h : ChInv mono s H) (now : Int) :
    ∃ s', cleanup s now = .ok s' ∧ Keeps mono s s' H := by
  unfold cleanup
  split
  · exact ⟨s, rfl, h, .refl s⟩
  · obtain ⟨ts, min, k1, k2, k3, k4, k5⟩ := cleanAll_spec h.inv h.top now s.scale (hi s.segs) s.tls s.next h.tl
    rw [k1]
    have := h.tlsOf ((k2.with_left (fun t ht => h.tls t ht)).imp (fun a b ⟨ha, h1, h2, h3, h4⟩ =>
      ⟨h1, h2, h3, keys_of_ids h1 ha.2.2 (fun i hi => .inl (h4.sub i hi))⟩))
    refine ⟨_, rfl, freeOld_inv this.1 ?_ k3 k4, ?_, this.2.last, this.2.tls⟩
    · exact min_mono h.minle (fun t ht => (this.1.tls t ht).2.2) k5
    · show hi s.segs ≤ hi (s.segs.free min)
      rw [hi_free h.inv]; exact Nat.le_refl _

theorem updateLast_spec {mono : Bool} {s : Ch} {H : List Seg} (h : ChInv mono s H) {dur : Nat} (hd : dur < 2 ^ 32)
    (hB : ∀ g, H.getLast? = some g → g.time + (dur : Nat) ≤ SegmentList.B) :
    (∃ s', updateLast s dur = .ok s' ∧ Keeps mono s s' (log H (.updateLast dur))) ∨ updateLast s dur = .err := by
  unfold updateLast
  split
  · exact .inr rfl
  · rename_i hp
    rcases update_ok (dur := dur) h.inv (by rw [← h.lastEq]; exact hB) with ⟨sl, e, hne⟩ | e
    · rw [e]
      simp only [Res.bind_ok]
      obtain ⟨A, g, eg⟩ : ∃ A g, segs s.segs.sl = A ++ [g] := by
        rcases SegmentList.snoc_cases (segs s.segs.sl) with e | h
        · exact absurd e hne
        · exact h
      have hlast : H.getLast? = some g := by rw [h.lastEq, eg]; simp
      have hidx := h.last g hlast
      obtain ⟨u1, u2, u3⟩ := SegmentList.update_spec h.inv hd eg (hB g hlast) e
      obtain ⟨ts, k1, k2⟩ := updAll_spec h.inv hd eg (hB g hlast) e (hi s.segs) s.tls h.tl
      rw [hidx, k1]
      have hhi : hi { s.segs with sl } = hi s.segs := by rw [hi_snoc (q := { s.segs with sl }) u2, hi_snoc eg]
      have he := k2.ids (fun a b h => h.2.2.1.id)
      obtain ⟨pre, l1, l2, l3⟩ := h.log
      have hlog : log H (.updateLast dur) = pre ++ (A ++ [{ g with dur }]) := by
        unfold log
        dsimp only
        rw [hlast]
        dsimp only
        rw [l1, eg, ← List.append_assoc, SegmentList.setLast_concat, List.append_assoc]
      refine .inl ⟨_, rfl, ⟨u1, ?_, ?_, h.nxt, h.minle, ?_, fun e => absurd e (by simp), ?_, idlt_of he h.idlt, idle_of he h.idle⟩, ?_, Nat.le_refl _, ?_⟩
      · refine ⟨pre, by rw [hlog]; dsimp only; rw [u2], l2, fun e => ?_⟩
        dsimp only at e
        rw [u2] at e; exact absurd e (by simp)
      · dsimp only; rw [hhi]; exact h.top
      · intro k hk
        rw [hlog, ← List.append_assoc] at hk
        simp at hk
        rw [← hk]
        try exact hidx
      · intro t ht
        obtain ⟨u, hu, r1, r2, r3, r4⟩ := k2.right t ht
        dsimp only
        rw [hhi]
        refine ⟨r1, r2, fun p hp => ?_⟩
        have : p.key ∈ t.periods.map (·.key) := List.mem_map.2 ⟨p, hp, rfl⟩
        rw [r4.keys] at this
        obtain ⟨p0, hp0, ek⟩ := List.mem_map.1 this
        rw [← ek]
        exact (h.tls u hu).2.2 p0 hp0
      · dsimp only; rw [hhi]; exact Nat.le_refl _
      · intro t ht
        obtain ⟨u, hu, r1, r2, r3, r4⟩ := k2.right t ht
        exact .inl ⟨u, hu, r3⟩
    · rw [e]; exact .inr rfl

theorem addSeg_spec {mono : Bool} {s : Ch} {H : List Seg} (h : ChInv mono s H) {now time : Int} {idx dur : Nat} {force : Bool}
    (ha : AddOk mono H idx time dur) (hn : s.next ≤ idx) (hidx : idx < invalidIdx) :
    (∃ s' ex, addSeg s now time idx dur force = .ok (s', ex) ∧ Keeps mono s s' (H ++ [⟨idx, time, dur⟩]) ∧
      ∃ q, All2 (Added q (hi s.segs) (time + (dur / 2 : Nat)) time idx force) s.tls s'.tls) ∨
    (s.pend = true ∧ addSeg s now time idx dur force = .err) := by
  unfold addSeg
  split
  · rename_i hp; exact .inr ⟨hp, rfl⟩
  · have ha' : AddOk mono (segs s.segs.sl) idx time dur := ⟨by rw [← h.lastEq]; exact ha.1, ha.2⟩
    obtain ⟨sl, e⟩ := add_ok h.inv ha'
    rw [e]
    simp only [Res.bind_ok]
    obtain ⟨i1, i2⟩ := SegmentList.add_spec h.inv ha' e
    have hhi : hi s.segs ≤ idx := by
      unfold hi
      cases hc : (segs s.segs.sl).getLast? with
      | none => exact Nat.zero_le _
      | some g => exact (ha'.1 g hc).1
    have hhi' : hi { s.segs with sl } = idx + 1 := hi_snoc (q := { s.segs with sl }) i2
    obtain ⟨ts, min, ex, k1, k2, k3, k4, k5⟩ := addAll_spec h.inv ha' hidx e (b := max (hi s.segs) s.next) (by omega) hhi now (time + (dur / 2 : Nat)) s.scale force s.tls s.next h.tl
    rw [k1]
    have he := k2.ids (fun a b h => h.ext.id)
    have hmin := h.minle
    unfold invalidIdx at hidx
    have hkeys : ∀ t ∈ ts, ∀ p ∈ t.periods, s.minIdx ≤ p.key := by
      intro t ht
      obtain ⟨u, hu, r⟩ := k2.right t ht
      refine keys_of_ids r.inv (h.tls u hu).2.2 (fun i hi => ?_)
      by_cases hadm : Admits u (time + (dur / 2 : Nat))
      · obtain ⟨k, ek⟩ := (r.adm hadm).1
        rw [ek] at hi
        rcases List.mem_append.1 (List.mem_of_mem_drop hi) with hi | hi
        · exact .inl hi
        · rw [List.mem_singleton.1 hi]; exact .inr (by omega)
      · obtain ⟨k, ek⟩ := (r.not hadm).1
        rw [ek] at hi
        exact .inl (List.mem_of_mem_drop hi)
    have hmm : s.minIdx ≤ min := min_mono h.minle hkeys k5
    obtain ⟨pre, l1, l2, l3⟩ := h.log
    refine .inl ⟨_, ex, rfl, ⟨freeOld_inv ⟨i1, ⟨pre, ?_, l2, ?_⟩, ?_, h.nxt, hmin, ?_, ?_, ?_, idlt_of he h.idlt, idle_of he h.idle⟩ hmm k3 k4, ?_, Nat.le_refl _, ?_⟩, { s.segs with sl }, k2⟩
    · dsimp only; rw [i2, l1, List.append_assoc]
    · intro e; dsimp only at e; rw [i2] at e; exact absurd e (by simp)
    · dsimp only; rw [hhi']; omega
    · intro g hg; simp at hg; rw [← hg]
    · intro hp; dsimp only at hp; exact ⟨⟨idx, time, dur⟩, by simp, of_decide_eq_true hp⟩
    · intro t ht
      obtain ⟨u, hu, r⟩ := k2.right t ht
      dsimp only
      refine ⟨r.inv, ?_, hkeys t ht⟩
      rw [hhi']; exact r.bnd.mono (Nat.le_refl _) (by omega)
    · show hi s.segs ≤ hi (Segs.free { s.segs with sl } min)
      rw [hi_free (q := { s.segs with sl }) i1, hhi']; omega
    · intro t ht
      obtain ⟨u, hu, r⟩ := k2.right t ht
      exact .inl ⟨u, hu, r.ext⟩

/-- Every operation keeps the invariant, or fails; there is no undefined behaviour. -/
theorem step_spec {mono : Bool} {s : Ch} {H : List Seg} (h : ChInv mono s H) {op : Op} (hg : Guard mono s H op) :
    (∃ s', step s op = .ok s' ∧ Keeps mono s s' (log H op)) ∨ step s op = .err := by
  cases op with
  | create c m now => exact create_spec h c m now
  | free id => exact .inl ⟨_, rfl, free_keeps h id⟩
  | update id c m => exact update_spec h id c m
  | get id now => exact .inl (get_spec h id now)
  | add now time idx dur force =>
    obtain ⟨h1, h2, h3⟩ := hg
    rcases addSeg_spec (now := now) (force := force) h h1 h2 h3 with ⟨s', ex, k1, k2, _⟩ | ⟨_, k⟩
    · exact .inl ⟨s', by unfold step; dsimp only; rw [k1]; rfl, k2⟩
    · exact .inr (by unfold step; dsimp only; rw [k]; rfl)
  | updateLast dur => exact updateLast_spec h hg.1 hg.2
  | truncate now idx => exact .inl (truncate_spec h now idx)
  | cleanup now => exact .inl (cleanup_spec h now)
  | next n =>
    obtain ⟨h1, h2⟩ := hg
    have hm := h.minle
    refine .inl ⟨_, rfl, ⟨h.inv, h.log, h.top, h2, Nat.le_trans hm h1, h.last, h.pend, fun t ht => ?_, h.idlt, h.idle⟩, Nat.le_refl _, Nat.le_refl _, ?_⟩
    · obtain ⟨t1, t2, t3⟩ := h.tls t ht
      exact ⟨t1, t2.mono (Nat.le_refl _) (by dsimp only; omega), t3⟩
    · intro t ht; exact .inl ⟨t, ht, .refl _ _⟩
  | setActive b =>
    exact .inl ⟨_, rfl, ⟨h.inv, h.log, h.top, h.nxt, h.minle, h.last, h.pend, h.tls, h.idlt, h.idle⟩, Nat.le_refl _, Nat.le_refl _,
      fun t ht => .inl ⟨t, ht, .refl _ _⟩⟩

theorem reach_inv {mono : Bool} {s : Ch} {H : List Seg} (hr : Reach mono s H) : ChInv mono s H := by
  induction hr with
  | init next scale h => exact init_inv mono next scale h
  | step hr hg he ih =>
    rcases step_spec ih hg with ⟨s', e, k, _⟩ | e
    · rw [he] at e; injection e with e; rw [e]; exact k
    · rw [he] at e; exact nomatch e

end Verif.Timeline
